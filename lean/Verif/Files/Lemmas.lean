import Verif.Files.Model
set_option linter.unusedVariables false
set_option linter.unusedSimpArgs false
set_option linter.unusedSectionVars false
/-
Lemmas about the file system, path and uninstallation models.
-/
namespace Pkm
namespace Files

variable {C : Type}

/-! ### maps -/

theorem get_filter_key {K V : Type} [DecidableEq K] (q : K → Bool) (d : Dict K V) (k : K) :
    Dict.get (d.filter (fun e => q e.1)) k = if q k then Dict.get d k else none := by
  induction d with
  | nil => simp [Dict.get]
  | cons e d ih =>
    obtain ⟨a, v⟩ := e
    by_cases hq : q a = true
    · rw [List.filter_cons_of_pos (by simpa using hq)]
      simp only [Dict.get]
      by_cases e : a = k
      · subst e; simp [hq]
      · simp only [e, if_false]; exact ih
    · rw [List.filter_cons_of_neg (by simpa using hq), ih]
      simp only [Dict.get]
      by_cases e : a = k
      · subst e; simp [hq]
      · simp [e]

theorem get_of_mem {K V : Type} [DecidableEq K] (d : Dict K V) (k : K) (v : V) (h : (k, v) ∈ d) :
    ∃ w, Dict.get d k = some w := by
  cases e : Dict.get d k with
  | some w => exact ⟨w, rfl⟩
  | none =>
    rw [Dict.get_none_iff] at e
    exact absurd (List.mem_map.2 ⟨_, h, rfl⟩) e

namespace FS

theorem dropTree_get (fs : FS C) (d k : Path) :
    Dict.get (dropTree fs d) k = if d <:+ k then none else Dict.get fs k := by
  unfold dropTree
  rw [get_filter_key (fun p => !d.isSuffixOf p)]
  by_cases h : d <:+ k
  · rw [if_pos h, if_neg]; simpa [List.isSuffixOf_iff_suffix] using h
  · rw [if_neg h, if_pos]
    cases e : d.isSuffixOf k
    · rfl
    · exact absurd (List.isSuffixOf_iff_suffix.1 e) h

theorem isDir_iff (fs : FS C) (p : Path) : isDir fs p = true ↔ Dict.get fs p = some .dir := by
  unfold isDir
  cases e : Dict.get fs p with
  | none => simp
  | some n => cases n <;> simp

theorem ex_iff (fs : FS C) (p : Path) : ex fs p = true ↔ ∃ n, Dict.get fs p = some n := by
  unfold ex; exact Option.isSome_iff_exists

theorem isEmptyDir_iff (fs : FS C) (d : Path) :
    isEmptyDir fs d = true ↔ Dict.get fs d = some .dir ∧ ∀ x, Dict.get fs (x :: d) = none := by
  unfold isEmptyDir
  rw [Bool.and_eq_true, isDir_iff]
  refine and_congr_right ?_
  intro _
  rw [Bool.not_eq_true', Bool.eq_false_iff]
  constructor
  · intro h x
    cases e : Dict.get fs (x :: d) with
    | none => rfl
    | some n =>
      exfalso; apply h
      rw [List.any_eq_true]
      exact ⟨_, Dict.get_mem _ _ _ e, by simp [childOf]⟩
  · intro h hany
    rw [List.any_eq_true] at hany
    obtain ⟨⟨k, n⟩, hm, hc⟩ := hany
    cases k with
    | nil => simp [childOf] at hc
    | cons x q =>
      simp [childOf] at hc
      subst hc
      obtain ⟨w, hw⟩ := get_of_mem _ _ _ hm
      rw [h] at hw; simp at hw

/-- `b` is what is left of `a`. -/
def Sub (b a : FS C) : Prop := ∀ k n, Dict.get b k = some n → Dict.get a k = some n

theorem Sub.refl (a : FS C) : Sub a a := fun _ _ h => h
theorem Sub.trans {a b c : FS C} (h1 : Sub a b) (h2 : Sub b c) : Sub a c := fun k n h => h2 k n (h1 k n h)
theorem Sub.none {a b : FS C} (h : Sub b a) {k : Path} (hk : Dict.get a k = none) : Dict.get b k = none := by
  cases e : Dict.get b k with
  | none => rfl
  | some n => rw [h k n e] at hk; simp at hk

theorem dropTree_sub (fs : FS C) (d : Path) : Sub (dropTree fs d) fs := by
  intro k n h
  rw [dropTree_get] at h
  split at h
  · simp at h
  · exact h

theorem del_sub (fs : FS C) (d : Path) : Sub (Dict.del fs d) fs := by
  intro k n h
  rw [Dict.get_del] at h
  split at h
  · simp at h
  · exact h

/-- Every entry lies in a directory. -/
def Tree (fs : FS C) : Prop := ∀ x p n, Dict.get fs (x :: p) = some n → Dict.get fs p = some .dir

theorem tree_del_file (fs : FS C) (p : Path) (h : Tree fs) (hp : Dict.get fs p ≠ some .dir) : Tree (Dict.del fs p) := by
  intro x q n hq
  rw [Dict.get_del] at hq
  split at hq
  · simp at hq
  · have := h x q n hq
    rw [Dict.get_del, if_neg]
    · exact this
    · intro e; subst e; exact hp this

theorem tree_del_empty (fs : FS C) (p : Path) (h : Tree fs) (hp : ∀ x, Dict.get fs (x :: p) = none) :
    Tree (Dict.del fs p) := by
  intro x q n hq
  rw [Dict.get_del] at hq
  split at hq
  · simp at hq
  · have := h x q n hq
    rw [Dict.get_del, if_neg]
    · exact this
    · intro e; subst e; rw [hp] at hq; simp at hq

theorem tree_dropTree (fs : FS C) (d : Path) (h : Tree fs) : Tree (dropTree fs d) := by
  intro x q n hq
  rw [dropTree_get] at hq
  split at hq
  · simp at hq
  · rename_i hs
    rw [dropTree_get, if_neg]
    · exact h x q n hq
    · intro e; exact hs (e.trans (List.suffix_cons x q))

theorem tree_below (fs : FS C) (h : Tree fs) (p : Path) (hp : ∀ x, Dict.get fs (x :: p) = none) (a : Path) (ha : a ≠ []) :
    Dict.get fs (a ++ p) = none := by
  induction a with
  | nil => exact absurd rfl ha
  | cons x a ih =>
    cases e : Dict.get fs (x :: a ++ p) with
    | none => rfl
    | some n =>
      by_cases h' : a = []
      · subst h'; simp [hp] at e
      · have := h x (a ++ p) n e
        rw [ih h'] at this; simp at this

end FS
open FS

/-! ### the loops of uninstall -/

theorem unlinkAll_spec : ∀ (files : List Path) (fs : FS C) (parents : List Path) (fs' : FS C) (parents' : List Path),
    unlinkAll files fs parents = some (fs', parents') →
    (∀ k, Dict.get fs' k = if k ∈ files then none else Dict.get fs k) ∧
    (∀ p, p ∈ parents' ↔ p ∈ parents ∨ ∃ f ∈ files, parent f = p) ∧
    (Tree fs → Tree fs') ∧ (∀ f ∈ files, Dict.get fs f ≠ some .dir) := by
  intro files
  induction files with
  | nil => intro fs parents fs' parents' h; simp [unlinkAll] at h; obtain ⟨rfl, rfl⟩ := h; simp
  | cons f files ih =>
    intro fs parents fs' parents' h
    unfold unlinkAll at h
    cases hu : fs.unlink f with
    | none => rw [hu] at h; simp at h
    | some fs1 =>
      rw [hu] at h
      obtain ⟨h1, h2, h3, h4⟩ := ih _ _ _ _ h
      have hget : (∀ k, Dict.get fs1 k = if k = f then none else Dict.get fs k) ∧ (Tree fs → Tree fs1) ∧
          Dict.get fs f ≠ some .dir := by
        unfold FS.unlink at hu
        cases hg : Dict.get fs f with
        | none =>
          rw [hg] at hu; simp at hu; subst hu
          refine ⟨?_, id, by simp⟩
          intro k; split
          · rename_i e; rw [e]; exact hg
          · rfl
        | some n =>
          rw [hg] at hu
          cases n with
          | dir => simp at hu
          | file c =>
            simp at hu; subst hu
            refine ⟨?_, fun ht => tree_del_file _ _ ht (by rw [hg]; simp), by simp⟩
            intro k
            rw [Dict.get_del]
            by_cases e : f = k
            · simp [e]
            · have : ¬ k = f := fun e' => e e'.symm
              simp [e, this]
      refine ⟨?_, ?_, fun ht => h3 (hget.2.1 ht), ?_⟩
      · intro k
        rw [h1, hget.1]
        by_cases e1 : k = f <;> by_cases e2 : k ∈ files <;> simp [e1, e2]
      · intro p
        rw [h2]
        by_cases hp : parent f ∈ parents
        · rw [if_pos hp]
          constructor
          · rintro (h | ⟨g, hg, e⟩)
            · exact Or.inl h
            · exact Or.inr ⟨g, by simp [hg], e⟩
          · rintro (h | ⟨g, hg, e⟩)
            · exact Or.inl h
            · rcases List.mem_cons.1 hg with rfl | hg
              · left; rw [← e]; exact hp
              · exact Or.inr ⟨g, hg, e⟩
        · rw [if_neg hp]
          constructor
          · rintro (h | ⟨g, hg, e⟩)
            · rcases List.mem_append.1 h with h | h
              · exact Or.inl h
              · simp at h; exact Or.inr ⟨f, by simp, h.symm⟩
            · exact Or.inr ⟨g, by simp [hg], e⟩
          · rintro (h | ⟨g, hg, e⟩)
            · left; simp [h]
            · rcases List.mem_cons.1 hg with rfl | hg
              · left; rw [← e]; simp
              · exact Or.inr ⟨g, hg, e⟩
      · intro g hg
        rcases List.mem_cons.1 hg with rfl | hg
        · exact hget.2.2
        · intro hd
          apply h4 g hg
          rw [hget.1]
          split
          · rename_i e; rw [e] at hd; exact absurd hd hget.2.2
          · exact hd

theorem unlinkAll_some : ∀ (files : List Path) (fs : FS C) (parents : List Path),
    (∀ f ∈ files, Dict.get fs f ≠ some .dir) → ∃ r, unlinkAll files fs parents = some r := by
  intro files
  induction files with
  | nil => intro fs parents _; exact ⟨_, rfl⟩
  | cons f files ih =>
    intro fs parents h
    unfold unlinkAll FS.unlink
    have hf := h f (by simp)
    cases hg : Dict.get fs f with
    | none => exact ih _ _ (fun g hg => h g (by simp [hg]))
    | some n =>
      cases n with
      | dir => exact absurd hg hf
      | file c =>
        refine ih _ _ ?_
        intro g hgm
        rw [Dict.get_del]
        split
        · simp
        · exact h g (by simp [hgm])

theorem del_length {K V : Type} [DecidableEq K] (d : Dict K V) (k : K) (v : V) (h : Dict.get d k = some v) :
    (Dict.del d k).length + 1 ≤ d.length := by
  induction d with
  | nil => simp [Dict.get] at h
  | cons e d ih =>
    obtain ⟨a, w⟩ := e
    simp only [Dict.get] at h
    simp only [Dict.del]
    by_cases e : a = k
    · have : (Dict.del d k).length ≤ d.length := by rw [Dict.del_eq_filter]; exact List.length_filter_le _ _
      simp [e]; exact this
    · simp [e] at h ⊢; exact ih h

theorem rmtreeQuiet_sub (fs : FS C) (d : Path) : Sub (fs.rmtreeQuiet d) fs := by
  unfold rmtreeQuiet; split
  · exact dropTree_sub _ _
  · exact Sub.refl _

theorem rmtreeQuiet_length (fs : FS C) (d : Path) : (fs.rmtreeQuiet d).length ≤ fs.length := by
  unfold rmtreeQuiet dropTree; split
  · exact List.length_filter_le _ _
  · exact Nat.le_refl _

theorem rmtreeQuiet_tree (fs : FS C) (d : Path) (h : Tree fs) : Tree (fs.rmtreeQuiet d) := by
  unfold rmtreeQuiet; split
  · exact tree_dropTree _ _ h
  · exact h

theorem rmtreeQuiet_gone (fs : FS C) (d k : Path) (n : Node C) (h : Dict.get fs k = some n)
    (h' : Dict.get (fs.rmtreeQuiet d) k = none) : d <:+ k := by
  unfold rmtreeQuiet at h'
  split at h'
  · rw [dropTree_get] at h'
    split at h'
    · assumption
    · rw [h] at h'; simp at h'
  · rw [h] at h'; simp at h'

/-- Why an entry disappeared in the second loop of uninstall: it lies in the `__pycache__` of a checked
directory `d`, or it is such a directory, which had become empty. -/
def Cleaned (site : Path) (work : List Path) (fs' : FS C) (k : Path) (n : Node C) : Prop :=
  ∃ d w, w ∈ work ∧ d <:+ w ∧ d ≠ site ∧ isRelativeTo d site = true ∧
    ((pycache :: d) <:+ k ∨ (k = d ∧ n = .dir ∧ ∀ x, Dict.get fs' (x :: d) = none))

theorem showPath_prefix (site d : Path) (h : site <:+ d) : isRelativeTo d site = true := by
  obtain ⟨a, rfl⟩ := h
  unfold isRelativeTo
  rw [List.isPrefixOf_iff_prefix]
  cases site with
  | nil =>
    cases a with
    | nil => simp
    | cons x a =>
      simp only [showPath, List.append_nil, List.reverse_cons, List.flatMap_append]
      cases h : a.reverse.flatMap (fun c => '/' :: c) with
      | nil => exact ⟨x, by simp⟩
      | cons y ys =>
        have : y = '/' := by
          cases hr : a.reverse with
          | nil => rw [hr] at h; simp at h
          | cons z zs => rw [hr] at h; simp at h; exact h.1.symm
        subst this
        exact ⟨ys ++ List.flatMap (fun c => '/' :: c) [x], by simp⟩
  | cons s site =>
    have h2 : showPath (a ++ s :: site) = (a ++ s :: site).reverse.flatMap (fun c => '/' :: c) := by
      cases a <;> rfl
    rw [h2]
    simp only [showPath, List.reverse_append, List.flatMap_append]
    exact List.prefix_append _ _

theorem cleanParents_spec (pick : List Path → Nat) (site : Path) : ∀ (fuel : Nat) (fs : FS C) (work : List Path),
    work.length + fs.length < fuel →
    ∃ fs', cleanParents pick site fuel fs work = some fs' ∧ Sub fs' fs ∧
      (∀ k n, Dict.get fs k = some n → Dict.get fs' k = none → Cleaned site work fs' k n) ∧
      (∀ d, site <:+ d → d ≠ site → isEmptyDir fs' d = true → isEmptyDir fs d = true ∧ d ∉ work) ∧
      (Tree fs → Tree fs') := by
  intro fuel
  induction fuel with
  | zero => intro fs work h; omega
  | succ fuel ih =>
    intro fs work hf
    cases work with
    | nil => exact ⟨fs, rfl, Sub.refl _, fun k n h1 h2 => by rw [h1] at h2; simp at h2, fun d _ _ h => ⟨h, by simp⟩, id⟩
    | cons p0 ps =>
      unfold cleanParents
      dsimp only
      generalize hp : (p0 :: ps).getD (pick (p0 :: ps)) p0 = p
      have hpm : p ∈ p0 :: ps := by
        rw [← hp, List.getD_eq_getElem?_getD]
        cases e : (p0 :: ps)[pick (p0 :: ps)]? with
        | none => simp
        | some q => exact List.mem_of_getElem? e
      have hlen : ((p0 :: ps).erase p).length + 1 = (p0 :: ps).length := by
        rw [List.length_erase_of_mem hpm]; simp
      have hrest : ∀ q, q ∈ (p0 :: ps).erase p → q ∈ p0 :: ps := fun q hq => List.mem_of_mem_erase hq
      have hrest' : ∀ q, q ≠ p → q ∈ p0 :: ps → q ∈ (p0 :: ps).erase p := fun q hq hm =>
        (List.mem_erase_of_ne hq).2 hm
      have hlift : ∀ (fs' : FS C) k n, Cleaned site ((p0 :: ps).erase p) fs' k n → Cleaned site (p0 :: ps) fs' k n := by
        rintro fs' k n ⟨d, w, hw, rest⟩
        exact ⟨d, w, hrest w hw, rest⟩
      by_cases hskip : p = site ∨ isRelativeTo p site = false
      · rw [if_pos hskip]
        obtain ⟨fs', e, h1, h2, h3, h4⟩ := ih fs ((p0 :: ps).erase p) (by omega)
        refine ⟨fs', e, h1, fun k n a b => hlift _ _ _ (h2 k n a b), ?_, h4⟩
        intro d hd hne hem
        obtain ⟨a, b⟩ := h3 d hd hne hem
        refine ⟨a, fun hm => b (hrest' d ?_ hm)⟩
        rintro rfl
        rcases hskip with h | h
        · exact hne h
        · rw [showPath_prefix site d hd] at h; simp at h
      · rw [if_neg hskip]
        simp only [not_or, Bool.not_eq_false] at hskip
        obtain ⟨hps, hrel⟩ := hskip
        generalize hfs2 : (if fs.ex (pycache :: p) = true then fs.rmtreeQuiet (pycache :: p) else fs) = fs2
        have hsub2 : Sub fs2 fs := by rw [← hfs2]; split; exact rmtreeQuiet_sub _ _; exact Sub.refl _
        have hlen2 : fs2.length ≤ fs.length := by
          rw [← hfs2]; split
          · exact rmtreeQuiet_length _ _
          · exact Nat.le_refl _
        have htree2 : Tree fs → Tree fs2 := by
          intro h; rw [← hfs2]; split
          · exact rmtreeQuiet_tree _ _ h
          · exact h
        have hgone2 : ∀ k n, Dict.get fs k = some n → Dict.get fs2 k = none → (pycache :: p) <:+ k := by
          intro k n a b
          rw [← hfs2] at b
          split at b
          · exact rmtreeQuiet_gone _ _ _ _ a b
          · rw [a] at b; simp at b
        -- emptiness before the removal of `__pycache__`
        have hempty2 : ∀ d, d ≠ p → isEmptyDir fs2 d = true → isEmptyDir fs d = true := by
          intro d hdp hem
          rw [isEmptyDir_iff] at hem ⊢
          refine ⟨hsub2 _ _ hem.1, ?_⟩
          intro x
          cases e : Dict.get fs (x :: d) with
          | none => rfl
          | some n =>
            exfalso
            have hs := hgone2 _ _ e (hem.2 x)
            rw [List.suffix_cons_iff] at hs
            rcases hs with h | h
            · simp at h; exact hdp h.2.symm
            · -- then `d` itself is gone
              have : Dict.get fs2 d = none := by
                rw [← hfs2] at hem ⊢
                by_cases hex : fs.ex (pycache :: p) = true
                · rw [if_pos hex] at hem ⊢
                  unfold rmtreeQuiet at hem ⊢
                  by_cases hdir : fs.isDir (pycache :: p) = true
                  · rw [if_pos hdir] at hem ⊢
                    rw [dropTree_get, if_pos h]
                  · rw [if_neg hdir] at hem
                    rw [hem.2 x] at e; simp at e
                · rw [if_neg hex] at hem
                  rw [hem.2 x] at e; simp at e
              rw [hem.1] at this; simp at this
        by_cases hemp : isEmptyDir fs2 p = true
        · rw [if_pos hemp]
          have hemp' := (isEmptyDir_iff _ _).1 hemp
          have hdl := del_length fs2 p _ hemp'.1
          have hl3 : (if parent p ∈ (p0 :: ps).erase p then (p0 :: ps).erase p
              else (p0 :: ps).erase p ++ [parent p]).length ≤ (p0 :: ps).length := by
            split
            · omega
            · simp only [List.length_append, List.length_singleton]; omega
          obtain ⟨fs', e, h1, h2, h3, h4⟩ := ih (Dict.del fs2 p)
            (if parent p ∈ (p0 :: ps).erase p then (p0 :: ps).erase p else (p0 :: ps).erase p ++ [parent p])
            (by omega)
          have hwork : ∀ w, w ∈ (if parent p ∈ (p0 :: ps).erase p then (p0 :: ps).erase p
              else (p0 :: ps).erase p ++ [parent p]) ↔ w ∈ (p0 :: ps).erase p ∨ w = parent p := by
            intro w
            split
            · constructor
              · exact Or.inl
              · rintro (h | rfl) <;> assumption
            · simp
          have hparsuf : parent p <:+ p := by
            cases p with
            | nil => exact List.suffix_refl _
            | cons x q => exact List.suffix_cons x q
          refine ⟨fs', e, h1.trans ((del_sub _ _).trans hsub2), ?_, ?_, fun ht => h4 (tree_del_empty _ _ (htree2 ht) hemp'.2)⟩
          · intro k n hk hk'
            cases h2k : Dict.get fs2 k with
            | none => exact ⟨p, p, hpm, List.suffix_refl _, hps, hrel, Or.inl (hgone2 k n hk h2k)⟩
            | some m =>
              have := hsub2 _ _ h2k
              rw [hk] at this; simp at this; subst this
              by_cases hkp : p = k
              · subst hkp
                rw [hemp'.1] at h2k; simp at h2k; subst h2k
                refine ⟨p, p, hpm, List.suffix_refl _, hps, hrel, Or.inr ⟨rfl, rfl, ?_⟩⟩
                intro x
                exact (h1.trans (del_sub _ _)).none (hemp'.2 x)
              · obtain ⟨d, w, hw, hdw, rest⟩ := h2 k n (by rw [Dict.get_del, if_neg hkp]; exact h2k) hk'
                rcases (hwork w).1 hw with hw | rfl
                · exact ⟨d, w, hrest w hw, hdw, rest⟩
                · exact ⟨d, p, hpm, hdw.trans hparsuf, rest⟩
          · intro d hd hne hem
            obtain ⟨a, b⟩ := h3 d hd hne hem
            have hdp : d ≠ p := by
              rintro rfl
              rw [isEmptyDir_iff, Dict.get_del] at a
              simp at a
            have hem2 : isEmptyDir fs2 d = true := by
              rw [isEmptyDir_iff] at a ⊢
              refine ⟨del_sub _ _ _ _ a.1, ?_⟩
              intro x
              have := a.2 x
              rw [Dict.get_del] at this
              split at this
              · rename_i e
                exfalso; apply b
                rw [hwork]
                right; rw [e]; rfl
              · exact this
            refine ⟨hempty2 d hdp hem2, fun hm => b ((hwork d).2 (Or.inl (hrest' d hdp hm)))⟩
        · rw [if_neg hemp]
          obtain ⟨fs', e, h1, h2, h3, h4⟩ := ih fs2 ((p0 :: ps).erase p) (by omega)
          refine ⟨fs', e, h1.trans hsub2, ?_, ?_, fun ht => h4 (htree2 ht)⟩
          · intro k n hk hk'
            cases h2k : Dict.get fs2 k with
            | none => exact ⟨p, p, hpm, List.suffix_refl _, hps, hrel, Or.inl (hgone2 k n hk h2k)⟩
            | some m =>
              have := hsub2 _ _ h2k
              rw [hk] at this; simp at this; subst this
              exact hlift _ _ _ (h2 k n h2k hk')
          · intro d hd hne hem
            obtain ⟨a, b⟩ := h3 d hd hne hem
            have hdp : d ≠ p := by rintro rfl; exact hemp a
            exact ⟨hempty2 d hdp a, fun hm => b (hrest' d hdp hm)⟩

/-! ### text of paths -/

theorem splitOn_name (c : Text) (h : '/' ∉ c) : splitOn '/' c = [c] := by
  induction c with
  | nil => rfl
  | cons x c ih =>
    simp at h
    have h1 : ¬ x = '/' := fun e => h.1 e.symm
    simp [splitOn, h1, ih h.2]

theorem splitOn_cons (c r : Text) (h : '/' ∉ c) : splitOn '/' (c ++ '/' :: r) = c :: splitOn '/' r := by
  induction c with
  | nil => simp [splitOn]
  | cons x c ih =>
    simp at h
    have h1 : ¬ x = '/' := fun e => h.1 e.symm
    simp [splitOn, h1, ih h.2]

theorem splitOn_joinSlash (cs : List Text) (hne : cs ≠ []) (h : ∀ c ∈ cs, '/' ∉ c) :
    splitOn '/' (joinSlash cs) = cs := by
  induction cs with
  | nil => exact absurd rfl hne
  | cons c cs ih =>
    cases cs with
    | nil => exact splitOn_name c (h c (by simp))
    | cons d ds =>
      simp only [joinSlash]
      rw [splitOn_cons _ _ (h c (by simp)), ih (by simp) (fun x hx => h x (by simp [hx]))]

theorem splitOn_back (n : Nat) (r : Text) :
    splitOn '/' ((List.replicate n ['.', '.', '/']).flatten ++ r) =
      List.replicate n ['.', '.'] ++ splitOn '/' r := by
  induction n with
  | zero => simp
  | succ n ih =>
    simp only [List.replicate_succ, List.flatten_cons, List.append_assoc, List.cons_append]
    have := splitOn_cons ['.', '.'] ((List.replicate n ['.', '.', '/']).flatten ++ r) (by decide)
    simp only [List.cons_append, List.nil_append] at this
    rw [List.nil_append, this, ih]

end Files
end Pkm
