import Verif.Environments.SharedInstall
import Verif.Conda.InstallLemmas
import Verif.Conda.InstallProps
import Verif.Files.CopyProps
set_option linter.unusedVariables false
set_option linter.unusedSimpArgs false
set_option linter.unusedSectionVars false
/-
Lemmas about moving a package to the shared directory.
-/
namespace Pkm
namespace SharedPkg
open Files Files.FS Conda Tags

variable {C S : Type}

/-- Neither of the two directories lies in the other one. -/
def Apart2 (a b : Path) : Prop := ¬ a <:+ b ∧ ¬ b <:+ a

theorem Apart2.symm {a b : Path} (h : Apart2 a b) : Apart2 b a := ⟨h.2, h.1⟩

theorem Apart2.no {a b : Path} (h : Apart2 a b) {p : Path} (ha : a <:+ p) (hb : b <:+ p) : False := by
  rcases List.suffix_or_suffix_of_suffix ha hb with e | e
  · exact h.1 e
  · exact h.2 e

theorem Apart2.down {a b p q : Path} (h : Apart2 a b) (ha : a <:+ p) (hb : b <:+ q) : Apart2 p q :=
  ⟨fun e => h.no (ha.trans e) hb, fun e => h.no ha (hb.trans e)⟩

theorem relTo_some {p root rel : Path} (h : relTo p root = some rel) : p = rel ++ root := by
  unfold relTo at h
  split at h
  · rename_i hs
    rw [List.isSuffixOf_iff_suffix] at hs
    obtain ⟨a, rfl⟩ := hs
    simp at h
    rw [← h]
  · cases h

theorem relTo_append (rel root : Path) : relTo (rel ++ root) root = some rel := by
  unfold relTo
  rw [if_pos (by simp [List.isSuffixOf_iff_suffix])]
  simp

theorem relTo_none {p root : Path} (h : relTo p root = none) : ¬ root <:+ p := by
  unfold relTo at h
  split at h
  · cases h
  · rename_i hs; rw [List.isSuffixOf_iff_suffix] at hs; exact hs

theorem append_left_inj' {a b root : Path} (h : a ++ root = b ++ root) : a = b := List.append_cancel_right h

theorem plainMkdir_spec {fs fs1 : FS C} (hg : Good fs) (d : Path) (h : plainMkdir fs d = some fs1) :
    Good fs1 ∧ (∀ p, Dict.get fs1 p = if Dict.get fs p = none ∧ p <:+ d then some .dir else Dict.get fs p) ∧
    Dict.get fs1 d = some .dir := by
  unfold plainMkdir at h
  split at h
  · cases h
  · rename_i ht
    simp only [Bool.not_eq_true] at ht
    simp only [Option.some.injEq] at h
    subst h
    refine ⟨addDirs_good fs hg d ht, addDirs_get' fs hg d, ?_⟩
    rw [addDirs_get' fs hg d]
    cases e : Dict.get fs d with
    | none => simp
    | some n =>
      cases n with
      | dir => simp
      | file c =>
        exfalso
        by_cases hd : d = []
        · subst hd; rw [hg.root] at e; cases e
        · exact (throughFile_iff fs d).1 ht d hd (List.suffix_refl _) c e

theorem plainMkdir_outside {fs fs1 : FS C} (hg : Good fs) (d dst : Path) (hb : dst <:+ d) (hd : Dict.get fs dst = some .dir)
    (h : plainMkdir fs d = some fs1) (p : Path) (hp : ¬ dst <:+ p) : Dict.get fs1 p = Dict.get fs p := by
  rw [(plainMkdir_spec hg d h).2.1]
  rw [if_neg]
  rintro ⟨hn, hs⟩
  rcases List.suffix_or_suffix_of_suffix hs hb with e | e
  · by_cases he : p = dst
    · subst he; exact hp (List.suffix_refl _)
    · rw [hg.ancestors dst _ hd p e he] at hn; cases hn
  · exact hp e

theorem plainMkdir_file {fs fs1 : FS C} (hg : Good fs) (d : Path) (h : plainMkdir fs d = some fs1) (p : Path) (c : C) :
    Dict.get fs1 p = some (.file c) ↔ Dict.get fs p = some (.file c) := by
  rw [(plainMkdir_spec hg d h).2.1]
  split
  · rename_i hh; simp [hh.1]
  · rfl

theorem plainMkdir_noFile {fs fs1 : FS C} (d : Path) (h : plainMkdir fs d = some fs1) (hd : d ≠ []) (c : C) :
    Dict.get fs d ≠ some (.file c) := by
  unfold plainMkdir at h
  split at h
  · cases h
  · rename_i ht
    simp only [Bool.not_eq_true] at ht
    exact (throughFile_iff fs d).1 ht d hd (List.suffix_refl _) c

theorem parent_below {dst rel : Path} (h : rel ≠ []) : dst <:+ parent (rel ++ dst) := by
  cases rel with
  | nil => exact absurd rfl h
  | cons x rel => exact ⟨rel, rfl⟩

theorem copyOne_spec {fs fs1 : FS C} (hg : Good fs) (dst rel : Path) (node : Option (Node C))
    (hd : Dict.get fs dst = some .dir) (h : copyOne fs (rel ++ dst) node = some fs1) :
    Good fs1 ∧ (∀ p, ¬ dst <:+ p → Dict.get fs1 p = Dict.get fs p) ∧ Dict.get fs1 dst = some .dir ∧
    (∀ c, node = some (.file c) → Dict.get fs1 (rel ++ dst) = some (.file c)) ∧
    (∀ p c, Dict.get fs p = some (.file c) → Dict.get fs1 p = some (.file c) ∨
      (p = rel ++ dst ∧ ∃ c', node = some (.file c') ∧ Dict.get fs1 p = some (.file c'))) ∧
    (∀ p c, Dict.get fs1 p = some (.file c) → Dict.get fs p = some (.file c) ∨ (p = rel ++ dst ∧ node = some (.file c))) := by
  unfold copyOne at h
  cases node with
  | none =>
    simp only [Option.some.injEq] at h
    subst h
    exact ⟨hg, fun _ _ => rfl, hd, by simp, fun p c h => .inl h, fun p c h => .inl h⟩
  | some n =>
    cases n with
    | dir =>
      simp only at h
      have hs := plainMkdir_spec hg _ h
      refine ⟨hs.1, fun p hp => plainMkdir_outside hg _ dst (List.suffix_append _ _) hd h p hp, ?_, by simp, ?_, ?_⟩
      · rw [hs.2.1, hd]; simp
      · intro p c hp; exact .inl ((plainMkdir_file hg _ h p c).2 hp)
      · intro p c hp; exact .inl ((plainMkdir_file hg _ h p c).1 hp)
    | file c0 =>
      simp only at h
      split at h
      · rename_i fs2 hm
        split at h
        · cases h
        · rename_i hnd
          simp only [Option.some.injEq] at h
          subst h
          have hs := plainMkdir_spec hg _ hm
          have hrel : rel ≠ [] := by
            rintro rfl
            apply hnd
            unfold isDir
            simp only [List.nil_append] at hs ⊢
            rw [hs.2.1, hd]
            simp
          have hne : dst ≠ rel ++ dst := by
            intro e
            have := congrArg List.length e
            simp at this
            exact hrel this
          obtain ⟨x, q, hxq⟩ : ∃ x q, rel ++ dst = x :: q := by
            cases rel with
            | nil => exact absurd rfl hrel
            | cons x r => exact ⟨x, r ++ dst, rfl⟩
          have hb := parent_below (dst := dst) hrel
          have hpar : Dict.get fs2 q = some .dir := by
            have := hs.2.2
            rw [hxq] at this
            exact this
          have hnd' : Dict.get fs2 (x :: q) ≠ some .dir := by
            intro e
            apply hnd
            unfold isDir
            rw [hxq, e]
          refine ⟨?_, ?_, ?_, ?_, ?_, ?_⟩
          · rw [hxq]
            exact good_write hs.1 x q c0 hnd' (by unfold isDir; rw [hpar])
          · intro p hp
            rw [Dict.get_put, if_neg (by rintro rfl; exact hp (List.suffix_append _ _))]
            exact plainMkdir_outside hg _ dst hb hd hm p hp
          · rw [Dict.get_put, if_neg (fun e => hne e.symm), hs.2.1, hd]; simp
          · intro c hc
            simp only [Option.some.injEq, Node.file.injEq] at hc
            subst hc
            rw [Dict.get_put, if_pos rfl]
          · intro p c hp
            rw [Dict.get_put]
            by_cases he : rel ++ dst = p
            · right
              rw [if_pos he]
              exact ⟨he.symm, c0, rfl, rfl⟩
            · left
              rw [if_neg he]
              exact (plainMkdir_file hg _ hm p c).2 hp
          · intro p c hp
            rw [Dict.get_put] at hp
            by_cases he : rel ++ dst = p
            · right
              rw [if_pos he] at hp
              exact ⟨he.symm, by simpa using hp⟩
            · left
              rw [if_neg he] at hp
              exact (plainMkdir_file hg _ hm p c).1 hp
      · cases h

/-- What the loop over the records does. -/
structure CopyDone (root dst : Path) (rs : List Path) (fs fs' : FS C) (left : List Path) : Prop where
  good : Good fs'
  dir : Dict.get fs' dst = some .dir
  outside : ∀ p, ¬ dst <:+ p → Dict.get fs' p = Dict.get fs p
  left : left = rs.filter (fun r => !isRelativeTo r root)
  below : ∀ r ∈ rs, isRelativeTo r root = true → root <:+ r
  copied : ∀ rel c, rel ++ root ∈ rs → Dict.get fs (rel ++ root) = some (.file c) → Dict.get fs' (rel ++ dst) = some (.file c)
  kept : ∀ rel c, Dict.get fs (rel ++ root) = some (.file c) → Dict.get fs (rel ++ dst) = some (.file c) →
    Dict.get fs' (rel ++ dst) = some (.file c)
  only : ∀ rel c, Dict.get fs' (rel ++ dst) = some (.file c) → Dict.get fs (rel ++ dst) = some (.file c) ∨
    (rel ++ root ∈ rs ∧ Dict.get fs (rel ++ root) = some (.file c))

theorem copyLoop_spec (root dst : Path) (hap : Apart2 root dst) : ∀ (rs : List Path) (fs fs' : FS C) (left : List Path),
    Good fs → Dict.get fs dst = some .dir → copyLoop root dst rs fs = (fs', .ok left) → CopyDone root dst rs fs fs' left := by
  intro rs
  induction rs with
  | nil =>
    intro fs fs' left hg hd h
    simp only [copyLoop, Prod.mk.injEq, Except.ok.injEq] at h
    obtain ⟨rfl, rfl⟩ := h
    exact ⟨hg, hd, fun _ _ => rfl, rfl, by simp, by simp, fun _ _ _ h => h, fun _ _ h => .inl h⟩
  | cons r rs ih =>
    intro fs fs' left hg hd h
    simp only [copyLoop] at h
    by_cases hr : isRelativeTo r root = true
    · rw [if_pos hr] at h
      cases hrel : relTo r root with
      | none => rw [hrel] at h; simp at h
      | some rel0 =>
        rw [hrel] at h
        simp only at h
        have hre := relTo_some hrel
        cases hc : copyOne fs (rel0 ++ dst) (Dict.get fs r) with
        | none => rw [hc] at h; simp at h
        | some fs1 =>
          rw [hc] at h
          simp only at h
          obtain ⟨g1, g2, g3, g4, g5, g6⟩ := copyOne_spec hg dst rel0 _ hd hc
          have D := ih fs1 fs' left g1 g3 h
          have hout : ∀ rel, Dict.get fs1 (rel ++ root) = Dict.get fs (rel ++ root) := fun rel =>
            g2 _ (fun e => hap.no (List.suffix_append rel root) e)
          have hkept : ∀ rel c, Dict.get fs (rel ++ root) = some (.file c) → Dict.get fs (rel ++ dst) = some (.file c) →
              Dict.get fs' (rel ++ dst) = some (.file c) := by
            intro rel c h1 h2
            apply D.kept rel c (by rw [hout]; exact h1)
            rcases g5 _ c h2 with e | ⟨e, c', hn, hg'⟩
            · exact e
            · have := append_left_inj' e
              subst this
              rw [hre, h1] at hn
              simp only [Option.some.injEq, Node.file.injEq] at hn
              rw [hn]; exact hg'
          refine ⟨D.good, D.dir, ?_, ?_, ?_, ?_, hkept, ?_⟩
          · intro p hp; rw [D.outside p hp, g2 p hp]
          · rw [D.left, List.filter_cons, if_neg (by simp [hr])]
          · intro q hq hqr
            rcases List.mem_cons.1 hq with rfl | hq
            · rw [hre]; exact List.suffix_append _ _
            · exact D.below q hq hqr
          · intro rel c hm hgc
            by_cases hin : rel ++ root ∈ rs
            · exact D.copied rel c hin (by rw [hout]; exact hgc)
            · have e : rel ++ root = r := by
                rcases List.mem_cons.1 hm with e | e
                · exact e
                · exact absurd e hin
              rw [hre] at e
              have := append_left_inj' e
              subst this
              apply D.kept rel c (by rw [hout]; exact hgc)
              apply g4
              rw [hre]; exact hgc
          · intro rel c hc'
            rcases D.only rel c hc' with e | ⟨e1, e2⟩
            · rcases g6 _ c e with e | ⟨e1, e2⟩
              · exact .inl e
              · have := append_left_inj' e1
                subst this
                right
                rw [← hre]
                exact ⟨by simp, e2⟩
            · right
              rw [hout] at e2
              exact ⟨by simp [e1], e2⟩
    · rw [if_neg hr] at h
      cases hl : copyLoop root dst rs fs with
      | mk fs1 res =>
        rw [hl] at h
        cases res with
        | error e => simp at h
        | ok left1 =>
          simp only [Prod.mk.injEq, Except.ok.injEq] at h
          obtain ⟨rfl, rfl⟩ := h
          have D := ih fs fs1 left1 hg hd hl
          have hnot : ∀ rel, rel ++ root ≠ r := by
            rintro rel rfl
            exact hr (showPath_prefix root _ (List.suffix_append _ _))
          refine ⟨D.good, D.dir, D.outside, ?_, ?_, ?_, D.kept, ?_⟩
          · rw [D.left, List.filter_cons, if_pos (by simp [hr])]
          · intro q hq hqr
            rcases List.mem_cons.1 hq with rfl | hq
            · exact absurd hqr hr
            · exact D.below q hq hqr
          · intro rel c hm hgc
            rcases List.mem_cons.1 hm with e | e
            · exact absurd e (hnot rel)
            · exact D.copied rel c e hgc
          · intro rel c hc'
            rcases D.only rel c hc' with e | ⟨e1, e2⟩
            · exact .inl e
            · exact .inr ⟨by simp [e1], e2⟩

/-- What `_copy_records` does. -/
structure Recopied (root dst : Path) (rs : List Path) (fs fs' : FS C) (left : List Path) : Prop where
  good : Good fs'
  dir : Dict.get fs' dst = some .dir
  fresh : Dict.get fs dst = none
  outside : ∀ p, ¬ dst <:+ p → Dict.get fs' p = if Dict.get fs p = none ∧ p <:+ dst then some .dir else Dict.get fs p
  left : left = rs.filter (fun r => !isRelativeTo r root)
  below : ∀ r ∈ rs, isRelativeTo r root = true → root <:+ r
  copied : ∀ rel c, rel ++ root ∈ rs → Dict.get fs (rel ++ root) = some (.file c) → Dict.get fs' (rel ++ dst) = some (.file c)
  only : ∀ rel c, Dict.get fs' (rel ++ dst) = some (.file c) →
    rel ++ root ∈ rs ∧ Dict.get fs (rel ++ root) = some (.file c)

theorem copyRecords_spec (root dst : Path) (hap : Apart2 root dst) (rs : List Path) (fs fs' : FS C) (left : List Path)
    (hg : Good fs) (h : copyRecords root dst rs fs = (fs', .ok left)) : Recopied root dst rs fs fs' left := by
  unfold copyRecords at h
  split at h
  · simp at h
  · rename_i hex
    have hn : Dict.get fs dst = none := by
      unfold ex at hex
      cases e : Dict.get fs dst with
      | none => rfl
      | some n => rw [e] at hex; simp at hex
    split at h
    · simp at h
    · rename_i fs1 hm
      obtain ⟨g1, g2, g3⟩ := plainMkdir_spec hg dst hm
      have D := copyLoop_spec root dst hap rs fs1 fs' left g1 g3 h
      have hroot : ∀ rel c, Dict.get fs1 (rel ++ root) = some (.file c) ↔ Dict.get fs (rel ++ root) = some (.file c) := by
        intro rel c; exact plainMkdir_file hg dst hm _ c
      have hempty : ∀ rel c, Dict.get fs1 (rel ++ dst) ≠ some (.file c) := by
        intro rel c e
        rw [plainMkdir_file hg dst hm] at e
        rw [below_none hg dst hn (rel ++ dst) (List.suffix_append _ _)] at e
        cases e
      refine ⟨D.good, D.dir, hn, ?_, D.left, D.below, ?_, ?_⟩
      · intro p hp; rw [D.outside p hp, g2]
      · intro rel c hm hc; exact D.copied rel c hm ((hroot rel c).2 hc)
      · intro rel c hc
        rcases D.only rel c hc with e | ⟨e1, e2⟩
        · exact absurd e (hempty rel c)
        · exact ⟨e1, (hroot rel c).1 e2⟩

/-! ### copytree -/

theorem graft_other (fs : FS C) (d : Path) (p : Path) (hp : ¬ d <:+ p) : ∀ (tree : FS C) (fs : FS C),
    Dict.get (fs.graft d tree) p = Dict.get fs p
  | [], fs => rfl
  | e :: tree, fs => by
    have := graft_other fs d p hp tree (Dict.put fs (e.1 ++ d) e.2)
    unfold graft at this ⊢
    rw [List.foldl_cons, this, Dict.get_put, if_neg (by rintro rfl; exact hp (List.suffix_append _ _))]

theorem graft_get (d : Path) (rel : Path) : ∀ (tree : FS C) (fs : FS C), Dict.Wf tree →
    Dict.get (fs.graft d tree) (rel ++ d) = match Dict.get tree rel with | some n => some n | none => Dict.get fs (rel ++ d)
  | [], fs, _ => rfl
  | e :: tree, fs, hw => by
    have hw' : Dict.Wf tree := by
      unfold Dict.Wf Dict.keys at hw ⊢
      simp only [List.map_cons, List.nodup_cons] at hw
      exact hw.2
    have hne : e.1 ∉ Dict.keys tree := by
      unfold Dict.Wf Dict.keys at hw
      simp only [List.map_cons, List.nodup_cons] at hw
      exact hw.1
    have ih := graft_get d rel tree (Dict.put fs (e.1 ++ d) e.2) hw'
    unfold graft at ih ⊢
    rw [List.foldl_cons, ih]
    simp only [Dict.get]
    by_cases he : e.1 = rel
    · rw [if_pos he]
      have : Dict.get tree rel = none := by
        rw [Dict.get_none_iff, ← he]; exact hne
      rw [this]
      simp only
      rw [Dict.get_put, if_pos (by rw [he])]
    · rw [if_neg he, Dict.get_put, if_neg (fun e' => he (append_left_inj' e'))]

theorem wf_graft (d : Path) : ∀ (tree : FS C) (fs : FS C), Dict.Wf fs → Dict.Wf (fs.graft d tree)
  | [], fs, h => h
  | e :: tree, fs, h => by
    have := wf_graft d tree (Dict.put fs (e.1 ++ d) e.2) (Dict.wf_put _ _ _ h)
    unfold graft at this ⊢
    rw [List.foldl_cons]; exact this

theorem subtree_get (fs : FS C) (src rel : Path) : Dict.get (fs.subtree src) rel = Dict.get fs (rel ++ src) := by
  unfold subtree
  have h := get_map_key (V := Node C) (fun p : Path => p.take (p.length - src.length)) (rel ++ src)
    (fs.filter (fun e => src.isSuffixOf e.1)) (by
      intro e he h
      rw [List.mem_filter] at he
      obtain ⟨a, ha⟩ := List.isSuffixOf_iff_suffix.1 he.2
      rw [← ha] at h ⊢
      simp at h
      rw [h])
  simp only [List.length_append, Nat.add_sub_cancel, List.take_left'] at h
  rw [h, get_filter_key (fun p => src.isSuffixOf p), if_pos (by simp [List.isSuffixOf_iff_suffix])]

theorem wf_subtree (fs : FS C) (src : Path) (h : Dict.Wf fs) : Dict.Wf (fs.subtree src) := by
  unfold Dict.Wf Dict.keys subtree at *
  rw [List.map_map]
  have h1 : ((fs.filter (fun e => src.isSuffixOf e.1)).map (·.1)).Nodup := h.sublist (List.Sublist.map _ List.filter_sublist)
  have : (List.map ((fun x => x.1) ∘ fun e : Path × Node C => (List.take (e.1.length - src.length) e.1, e.2))
      (List.filter (fun e => src.isSuffixOf e.1) fs)) =
      ((fs.filter (fun e => src.isSuffixOf e.1)).map (·.1)).map (fun p => p.take (p.length - src.length)) := by
    rw [List.map_map]; rfl
  rw [this]
  unfold List.Nodup at h1 ⊢
  rw [List.pairwise_map]
  refine List.Pairwise.imp_of_mem ?_ h1
  intro a b ha hb hab he
  rw [List.mem_map] at ha hb
  obtain ⟨x, hx, rfl⟩ := ha
  obtain ⟨y, hy, rfl⟩ := hb
  rw [List.mem_filter] at hx hy
  obtain ⟨u, hu⟩ := List.isSuffixOf_iff_suffix.1 hx.2
  obtain ⟨v, hv⟩ := List.isSuffixOf_iff_suffix.1 hy.2
  rw [← hu, ← hv] at he hab
  simp at he
  exact hab (by rw [he])

theorem copyDir_spec (src dst : Path) (hap : Apart2 src dst) (fs fs' : FS C) (u : Unit) (hg : Good fs)
    (h : copyDir fs src dst = (fs', .ok u)) :
    Good fs' ∧ (∀ rel, Dict.get fs' (rel ++ dst) = Dict.get fs (rel ++ src)) ∧
    (∀ p, ¬ dst <:+ p → Dict.get fs' p = if Dict.get fs p = none ∧ p <:+ dst then some .dir else Dict.get fs p) ∧
    Dict.get fs dst = none := by
  unfold copyDir at h
  split at h
  · rename_i hsrc
    have hsd : Dict.get fs src = some .dir := by
      unfold isDir at hsrc
      split at hsrc
      · assumption
      · cases hsrc
    split at h
    · simp at h
    · rename_i hex
      have hn : Dict.get fs dst = none := by
        unfold ex at hex
        cases e : Dict.get fs dst with
        | none => rfl
        | some n => rw [e] at hex; simp at hex
      split at h
      · simp at h
      · rename_i fs1 hm
        simp only [Prod.mk.injEq, Except.ok.injEq, and_true] at h
        subst h
        obtain ⟨g1, g2, g3⟩ := plainMkdir_spec hg dst hm
        have hin : ∀ rel, Dict.get (fs1.graft dst (fs.subtree src)) (rel ++ dst) = Dict.get fs (rel ++ src) := by
          intro rel
          rw [graft_get dst rel _ _ (wf_subtree fs src hg.wf), subtree_get]
          cases e : Dict.get fs (rel ++ src) with
          | some n => rfl
          | none =>
            simp only
            have hrel : rel ≠ [] := by
              rintro rfl
              rw [List.nil_append, hsd] at e; cases e
            rw [g2, if_neg, below_none hg dst hn _ (List.suffix_append _ _)]
            rintro ⟨_, hs⟩
            have := hs.length_le
            rw [List.length_append] at this
            exact hrel (List.length_eq_zero_iff.1 (by omega))
        have hout : ∀ p, ¬ dst <:+ p → Dict.get (fs1.graft dst (fs.subtree src)) p =
            if Dict.get fs p = none ∧ p <:+ dst then some .dir else Dict.get fs p := by
          intro p hp
          rw [graft_other fs1 dst p hp, g2]
        refine ⟨⟨?_, ?_, wf_graft _ _ _ g1.wf⟩, hin, hout, hn⟩
        · intro x q n hq
          by_cases hd : dst <:+ x :: q
          · by_cases he : dst = x :: q
            · have hnq : ¬ dst <:+ q := by
                intro e; have := e.length_le; rw [he, List.length_cons] at this; omega
              rw [graft_other fs1 dst q hnq]
              exact g1.tree x q .dir (by rw [← he]; exact g3)
            · have hdq : dst <:+ q := by
                rcases List.suffix_cons_iff.1 hd with e | e
                · exact absurd e he
                · exact e
              obtain ⟨rel, rfl⟩ := hdq
              rw [hin]
              rw [show x :: (rel ++ dst) = (x :: rel) ++ dst from rfl, hin] at hq
              exact hg.tree x (rel ++ src) n hq
          · rw [graft_other fs1 dst _ hd] at hq
            rw [graft_other fs1 dst q (fun e => hd (e.trans (List.suffix_cons x q)))]
            exact g1.tree x q n hq
        · by_cases hd : dst = []
          · subst hd; rw [hg.root] at hn; cases hn
          · rw [graft_other fs1 dst [] (fun e => hd (List.suffix_nil.1 e))]
            exact g1.root
  · simp at h

/-! ### uninstall -/

theorem flat_len : ∀ (a : List Text), a.length ≤ (a.flatMap (fun c => '/' :: c)).length
  | [] => by simp
  | x :: a => by
    have := flat_len a
    rw [List.flatMap_cons, List.length_append, List.length_cons, List.length_cons]; omega

theorem showPath_length (x : Text) (p : Path) : (showPath (x :: p)).length = ((x :: p).map (fun c => c.length + 1)).sum := by
  have : showPath (x :: p) = (x :: p).reverse.flatMap (fun c => '/' :: c) := rfl
  rw [this, List.length_flatMap]
  simp only [List.length_cons]
  rw [List.map_reverse, List.sum_reverse]

/-- A path above another one is not textually relative to it. -/
theorem not_relative_above (d site : Path) (hs : ∀ c ∈ site, c ≠ []) (h : d <:+ site) (hne : d ≠ site) :
    isRelativeTo d site = false := by
  cases e : isRelativeTo d site with
  | false => rfl
  | true =>
    exfalso
    unfold isRelativeTo at e
    rw [List.isPrefixOf_iff_prefix] at e
    have hl := e.length_le
    obtain ⟨a, rfl⟩ := h
    cases a with
    | nil => exact hne rfl
    | cons x a =>
      rw [List.cons_append, showPath_length] at hl
      have hx : 0 < x.length := List.length_pos_iff.2 (hs x (by simp))
      cases d with
      | nil =>
        simp [showPath] at hl
        omega
      | cons y d =>
        rw [showPath_length] at hl
        simp only [List.map_cons, List.sum_cons, List.map_append, List.sum_append] at hl
        omega

theorem wf_del (fs : FS C) (p : Path) (h : Dict.Wf fs) : Dict.Wf (Dict.del fs p) := by
  induction fs with
  | nil => exact h
  | cons e fs ih =>
    obtain ⟨a, w⟩ := e
    unfold Dict.Wf Dict.keys at h ih ⊢
    simp only [List.map_cons, List.nodup_cons] at h
    have ih := ih h.2
    simp only [Dict.del]
    split
    · exact ih
    · simp only [List.map_cons, List.nodup_cons]
      refine ⟨fun hm => h.1 ?_, ih⟩
      have : Dict.get (Dict.del fs p) a ≠ none := by
        intro hn; rw [Dict.get_none_iff] at hn; exact hn hm
      rw [Dict.get_del] at this
      split at this
      · exact absurd rfl this
      · have h2 : ¬ (a ∉ Dict.keys fs) := fun hk => this (Dict.get_none_iff fs a |>.2 hk)
        exact Decidable.not_not.1 h2

theorem wf_unlinkAll : ∀ (files : List Path) (fs : FS C) (ps : List Path) (fs' : FS C) (ps' : List Path),
    unlinkAll files fs ps = some (fs', ps') → Dict.Wf fs → Dict.Wf fs'
  | [], fs, ps, fs', ps', h, hw => by
    simp only [unlinkAll, Option.some.injEq, Prod.mk.injEq] at h
    rw [← h.1]; exact hw
  | f :: files, fs, ps, fs', ps', h, hw => by
    simp only [unlinkAll] at h
    split at h
    · cases h
    · rename_i fs1 hu
      apply wf_unlinkAll files fs1 _ fs' ps' h
      unfold unlink at hu
      split at hu
      · cases hu
      · simp only [Option.some.injEq] at hu; rw [← hu]; exact wf_del fs f hw
      · simp only [Option.some.injEq] at hu; rw [← hu]; exact hw

theorem wf_cleanParents (pick : List Path → Nat) (site : Path) : ∀ (fuel : Nat) (fs : FS C) (work : List Path) (fs' : FS C),
    cleanParents pick site fuel fs work = some fs' → Dict.Wf fs → Dict.Wf fs'
  | 0, _, _, _, h, _ => by simp [cleanParents] at h
  | fuel + 1, fs, [], fs', h, hw => by
    simp only [cleanParents, Option.some.injEq] at h; rw [← h]; exact hw
  | fuel + 1, fs, p0 :: ps, fs', h, hw => by
    simp only [cleanParents] at h
    split at h
    · exact wf_cleanParents pick site fuel _ _ fs' h hw
    · generalize hp : (p0 :: ps).getD (pick (p0 :: ps)) p0 = p at h
      have h1 : Dict.Wf (if fs.ex (pycache :: p) then fs.rmtreeQuiet (pycache :: p) else fs) := by
        split
        · unfold rmtreeQuiet; split
          · exact wf_dropTree _ _ hw
          · exact hw
        · exact hw
      generalize (if fs.ex (pycache :: p) then fs.rmtreeQuiet (pycache :: p) else fs) = fs1 at h h1
      split at h
      · exact wf_cleanParents pick site fuel _ _ fs' h (wf_del _ _ h1)
      · exact wf_cleanParents pick site fuel _ _ fs' h h1

theorem wf_uninstall (pick : List Path → Nat) (distInfo : Path) (records : List Text) (fs fs' : FS C)
    (h : uninstall pick distInfo records fs = some fs') (hw : Dict.Wf fs) : Dict.Wf fs' := by
  unfold uninstall at h
  split at h
  · cases h
  · rename_i fs1 ps h1
    split at h
    · cases h
    · rename_i fs2 h2
      have w2 := wf_cleanParents _ _ _ _ _ _ h2 (wf_unlinkAll _ _ _ _ _ h1 hw)
      split at h
      · unfold rmtree at h
        split at h
        · simp only [Option.some.injEq] at h; rw [← h]; exact wf_dropTree _ _ w2
        · cases h
      · simp only [Option.some.injEq] at h; rw [← h]; exact w2

/-- Uninstalling a package whose files lie in a directory `env`: the file system stays a tree, and outside
of `env` nothing changes. -/
theorem uninstall_within (pick : List Path → Nat) (env : Path) (name : Text) (site : Path) (records : List Text) (fs fs' : FS C)
    (hg : Good fs) (hs : ∀ c ∈ site, c ≠ []) (henv : env <:+ site)
    (hrec : ∀ f, Spec.Recorded (name :: site) records f → env <:+ f)
    (h : uninstall pick (name :: site) records fs = some fs') :
    Good fs' ∧ ∀ k, ¬ env <:+ k → Dict.get fs' k = Dict.get fs k := by
  obtain ⟨fs1, work, fs2, h1, h2, h3, h4, h5, h6, h7, h8⟩ := uninstall_steps pick _ records fs fs' h
  have hdi : ∀ k, name :: site <:+ k → env <:+ k := fun k hk => (henv.trans (List.suffix_cons _ _)).trans hk
  have hsame : ∀ k, ¬ env <:+ k → Dict.get fs2 k = Dict.get fs k := by
    intro k hk
    have hk1 : Dict.get fs1 k = Dict.get fs k := by
      rw [h1, if_neg (fun hm => hk (hrec k ((mem_installedFiles _ _ _).1 hm)))]
    cases e2 : Dict.get fs2 k with
    | some n => rw [← hk1, h4 k n e2]
    | none =>
      cases e1 : Dict.get fs1 k with
      | none => rw [← hk1, e1]
      | some n =>
        exfalso
        obtain ⟨d, w, hw, hdw, hne, hrel, hh⟩ := h5 k n e1 e2
        have hdk : d <:+ k := by
          rcases hh with e | ⟨e, _⟩
          · exact (List.suffix_cons _ _).trans e
          · rw [e]; exact List.suffix_refl _
        obtain ⟨f, hf, rfl⟩ := (h2 w).1 hw
        have hdf : d <:+ f := hdw.trans (parent_suffix f)
        rcases List.suffix_or_suffix_of_suffix hdf (hrec f ((mem_installedFiles _ _ _).1 hf)) with e | e
        · change isRelativeTo d site = true at hrel
          rw [not_relative_above d site hs (e.trans henv) hne] at hrel
          cases hrel
        · exact hk (e.trans hdk)
  have hfs' : ∀ k, ¬ env <:+ k → Dict.get fs' k = Dict.get fs k := by
    intro k hk
    rcases h8 with ⟨_, rfl⟩ | ⟨_, rfl⟩
    · rw [dropTree_get, if_neg (fun e => hk (hdi k e)), hsame k hk]
    · exact hsame k hk
  refine ⟨⟨?_, ?_, wf_uninstall _ _ _ _ _ h hg.wf⟩, hfs'⟩
  · rcases h8 with ⟨_, rfl⟩ | ⟨_, rfl⟩
    · intro x q n hq
      rw [dropTree_get] at hq ⊢
      split at hq
      · cases hq
      · rename_i hd
        rw [if_neg (fun e => hd (e.trans (List.suffix_cons x q)))]
        exact h7 hg.tree x q n hq
    · exact h7 hg.tree
  · by_cases he : env = []
    · -- the root is not cleaned away
      have hroot : Dict.get fs2 [] = some .dir := by
        have hk1 : Dict.get fs1 [] = some .dir := by
          rw [h1, if_neg]
          · exact hg.root
          · intro hm; exact h3 _ hm hg.root
        cases e2 : Dict.get fs2 [] with
        | some n => rw [← hk1, h4 _ n e2]
        | none =>
          exfalso
          obtain ⟨d, w, hw, hdw, hne, hrel, hh⟩ := h5 [] _ hk1 e2
          have hd0 : d = [] := by
            rcases hh with e | ⟨e, _⟩
            · have := e.length_le; simp at this
            · exact e.symm
          subst hd0
          change isRelativeTo [] site = true at hrel
          rw [not_relative_above [] site hs (List.nil_suffix) hne] at hrel
          cases hrel
      rcases h8 with ⟨_, rfl⟩ | ⟨_, rfl⟩
      · rw [dropTree_get, if_neg (fun e => by have := e.length_le; simp at this)]; exact hroot
      · exact hroot
    · rw [hfs' [] (fun e => he (List.suffix_nil.1 e))]; exact hg.root

theorem uninstall_keeps_site (pick : List Path → Nat) (name : Text) (site : Path) (records : List Text) (fs fs' : FS C)
    (hs : ∀ c ∈ site, c ≠ []) (hd : Dict.get fs site = some .dir) (h : uninstall pick (name :: site) records fs = some fs') :
    Dict.get fs' site = some .dir := by
  obtain ⟨fs1, work, fs2, h1, h2, h3, h4, h5, h6, h7, h8⟩ := uninstall_steps pick _ records fs fs' h
  have hk1 : Dict.get fs1 site = some .dir := by
    rw [h1, if_neg (fun hm => h3 _ hm hd), hd]
  have hk2 : Dict.get fs2 site = some .dir := by
    cases e2 : Dict.get fs2 site with
    | some n => rw [← hk1, h4 _ n e2]
    | none =>
      exfalso
      obtain ⟨d, w, hw, hdw, hne, hrel, hh⟩ := h5 site _ hk1 e2
      change isRelativeTo d site = true at hrel
      have hds : d <:+ site := by
        rcases hh with e | ⟨e, _⟩
        · exact (List.suffix_cons _ _).trans e
        · exact e ▸ List.suffix_refl _
      rw [not_relative_above d site hs hds hne] at hrel
      cases hrel
  rcases h8 with ⟨_, rfl⟩ | ⟨_, rfl⟩
  · rw [dropTree_get, if_neg]
    · exact hk2
    · intro e; have := e.length_le; rw [List.length_cons] at this; omega
  · exact hk2

/-! ### the steps of a move -/

theorem sibling_apart {a b : Text} (t : Path) (h : a ≠ b) : Apart2 (a :: t) (b :: t) := by
  constructor
  · intro e
    have := e.eq_of_length (by simp)
    simp at this; exact h this
  · intro e
    have := e.eq_of_length (by simp)
    simp at this; exact h this.symm

/-- What a move to the shared directory does. -/
structure Moved (w : World C S) (env : Path) (siteName : Text) (site : Path) (n : Text) (target : Path) (lines : List Text)
    (fs fs3 : FS C) : Prop where
  good : Good fs3
  outside : ∀ p, ¬ env <:+ p → ¬ target <:+ p →
    Dict.get fs3 p = if Dict.get fs p = none ∧ p <:+ target then some .dir else Dict.get fs p
  siteDir : Dict.get fs3 (siteName :: target) = some .dir
  siteKept : Dict.get fs site = some .dir → Dict.get fs3 site = some .dir
  noOther : siteName ≠ t!"purelib" → Dict.get fs3 (t!"purelib" :: target) = none
  modules : ∀ rel c, Spec.Recorded (n :: site) lines (rel ++ site) → isRelativeTo (rel ++ site) (n :: site) = false →
    Dict.get fs (rel ++ site) = some (.file c) → Dict.get fs3 (rel ++ siteName :: target) = some (.file c)
  siteOnly : ∀ rel c, Dict.get fs3 (rel ++ siteName :: target) = some (.file c) →
    Spec.Recorded (n :: site) lines (rel ++ site) ∧ Dict.get fs (rel ++ site) = some (.file c)
  scriptFiles : ∀ rel c, Spec.Recorded (n :: site) lines (rel ++ w.scripts) → isRelativeTo (rel ++ w.scripts) (n :: site) = false →
    isRelativeTo (rel ++ w.scripts) site = false → stemPath (rel ++ w.scripts) ∉ (entriesAt w fs (n :: site)).map (·.1) →
    Dict.get fs (rel ++ w.scripts) = some (.file c) → Dict.get fs3 (rel ++ t!"bin" :: target) = some (.file c)
  scriptsOnly : ∀ rel c, Dict.get fs3 (rel ++ t!"bin" :: target) = some (.file c) →
    Spec.Recorded (n :: site) lines (rel ++ w.scripts) ∧ stemPath (rel ++ w.scripts) ∉ (entriesAt w fs (n :: site)).map (·.1) ∧
    Dict.get fs (rel ++ w.scripts) = some (.file c)
  info : ∀ rel, Dict.get fs3 (rel ++ t!"dist-info" :: target) = Dict.get fs (rel ++ n :: site)
  fresh : Dict.get fs (siteName :: target) = none ∧ Dict.get fs (t!"bin" :: target) = none ∧
    Dict.get fs (t!"dist-info" :: target) = none
  gone : (∀ f, Spec.Recorded (n :: site) lines f → Dict.get fs3 f = none) ∧ ∀ k, n :: site <:+ k → Dict.get fs3 k = none
  sub : ∀ k m, env <:+ k → Dict.get fs3 k = some m → Dict.get fs k = some m
  kept : ∀ k c, env <:+ k → Dict.get fs k = some (.file c) → Dict.get fs3 k = none →
    Spec.Recorded (n :: site) lines k ∨ n :: site <:+ k ∨
      ∃ f d, Spec.Recorded (n :: site) lines f ∧ d <:+ parent f ∧ d ≠ site ∧ isRelativeTo d site = true ∧ (pycache :: d) <:+ k

theorem suffix_cons_trans {a : Text} {t p : Path} (h : a :: t <:+ p) : t <:+ p := (List.suffix_cons a t).trans h

theorem moveTo_spec (w : World C S) (env : Path) (siteName : Text) (site : Path) (n : Text) (target : Path) (fs fs3 : FS C)
    (r : Option Path) (hg : Good fs)
    (hsite : env <:+ site) (hscr : env <:+ w.scripts) (hap : Apart2 env target) (hnames : ∀ c ∈ site, c ≠ [])
    (hsn : siteName = t!"purelib" ∨ siteName = t!"platlib") (hfresh : Dict.get fs target = none)
    (hrec : ∀ f, Spec.Recorded (n :: site) ((recordsAt w fs (n :: site)).map (·.file)) f → env <:+ f)
    (h : moveTo w siteName site (n :: site) target fs = (fs3, .ok r)) :
    r = some target ∧ Moved w env siteName site n target ((recordsAt w fs (n :: site)).map (·.file)) fs fs3 := by
  have hne : siteName ≠ t!"bin" ∧ siteName ≠ t!"dist-info" := by
    rcases hsn with rfl | rfl <;> exact ⟨by decide, by decide⟩
  unfold moveTo at h
  simp only at h
  generalize hl : (recordsAt w fs (n :: site)).map (·.file) = lines at h hrec ⊢
  cases h1 : copyRecords site (siteName :: target) ((installedFiles (n :: site) lines).filter (fun r => !isRelativeTo r (n :: site))) fs with
  | mk fs1 r1 =>
  rw [h1] at h
  cases r1 with
  | error e => simp at h
  | ok left1 =>
  simp only at h
  have apS : Apart2 site (siteName :: target) := hap.down hsite (List.suffix_cons _ _)
  have apB : Apart2 w.scripts (t!"bin" :: target) := hap.down hscr (List.suffix_cons _ _)
  have apD : Apart2 (n :: site) (t!"dist-info" :: target) := hap.down (hsite.trans (List.suffix_cons _ _)) (List.suffix_cons _ _)
  have R1 := copyRecords_spec site (siteName :: target) apS _ fs fs1 left1 hg h1
  -- what lies in the environment is unchanged up to the uninstallation
  have henv1 : ∀ p, env <:+ p → Dict.get fs1 p = Dict.get fs p := by
    intro p hp
    rw [R1.outside p (fun e => hap.no hp (suffix_cons_trans e)), if_neg]
    rintro ⟨_, e⟩
    have h1 : env <:+ siteName :: target := hp.trans e
    exact hap.no h1 (List.suffix_cons _ _)
  have hent : entriesAt w fs1 (n :: site) = entriesAt w fs (n :: site) := by
    unfold entriesAt readFile
    rw [henv1 _ ((hsite.trans (List.suffix_cons n _)).trans (List.suffix_cons _ _))]
  rw [hent] at h
  cases h2 : copyRecords w.scripts (t!"bin" :: target) (left1.filter (fun r => !isRelativeTo r w.scripts ||
      !((entriesAt w fs (n :: site)).map (·.1)).contains (stemPath r))) fs1 with
  | mk fs2 r2 =>
  rw [h2] at h
  cases r2 with
  | error e => simp at h
  | ok left2 =>
  simp only at h
  have R2 := copyRecords_spec w.scripts (t!"bin" :: target) apB _ fs1 fs2 left2 R1.good h2
  have henv2 : ∀ p, env <:+ p → Dict.get fs2 p = Dict.get fs p := by
    intro p hp
    rw [R2.outside p (fun e => hap.no hp (suffix_cons_trans e)), if_neg, henv1 p hp]
    rintro ⟨_, e⟩
    have h1 : env <:+ t!"bin" :: target := hp.trans e
    exact hap.no h1 (List.suffix_cons _ _)
  cases h3 : copyDir fs2 (n :: site) (t!"dist-info" :: target) with
  | mk fs2' r3 =>
  rw [h3] at h
  cases r3 with
  | error e => simp at h
  | ok u =>
  simp only at h
  obtain ⟨D1, D2, D3, D4⟩ := copyDir_spec (n :: site) (t!"dist-info" :: target) apD fs2 fs2' u R2.good h3
  have henv3 : ∀ p, env <:+ p → Dict.get fs2' p = Dict.get fs p := by
    intro p hp
    rw [D3 p (fun e => hap.no hp (suffix_cons_trans e)), if_neg, henv2 p hp]
    rintro ⟨_, e⟩
    have h1 : env <:+ t!"dist-info" :: target := hp.trans e
    exact hap.no h1 (List.suffix_cons _ _)
  cases h4 : uninstall w.pick (n :: site) lines fs2' with
  | none => rw [h4] at h; simp at h
  | some fs3' =>
  rw [h4] at h
  simp only [Prod.mk.injEq, Except.ok.injEq] at h
  obtain ⟨rfl, rfl⟩ := h
  refine ⟨rfl, ?_⟩
  obtain ⟨U1, U2⟩ := uninstall_within w.pick env n site lines fs2' fs3' D1 hnames hsite hrec h4
  have U3 := uninstall_removes_recorded w.pick (n :: site) lines fs2' fs3' D1.tree h4
  have U4 := uninstall_touches_only_partial w.pick (n :: site) lines fs2' fs3' h4
  have hnoenv : ∀ {a : Text} {rel : Path}, ¬ env <:+ rel ++ a :: target := fun e =>
    hap.no e ((List.suffix_cons _ _).trans (List.suffix_append _ _))
  have hsib : ∀ {a b : Text} {rel : Path}, a ≠ b → ¬ a :: target <:+ rel ++ b :: target := fun hab e =>
    (sibling_apart target hab).no e (List.suffix_append _ _)
  have hle : ∀ {a b : Text} {rel : Path}, a ≠ b → ¬ (rel ++ b :: target <:+ a :: target) := fun hab e =>
    (sibling_apart target hab).no (List.suffix_refl _) ((List.suffix_append _ _).trans e)
  -- a place below the shared directory
  have hpass2 : ∀ (a : Text) (rel : Path), a ≠ t!"bin" → Dict.get fs2 (rel ++ a :: target) = Dict.get fs1 (rel ++ a :: target) := by
    intro a rel ha
    rw [R2.outside _ (hsib (Ne.symm ha)), if_neg]
    rintro ⟨_, e⟩
    exact hle (Ne.symm ha) e
  have hpass3 : ∀ (a : Text) (rel : Path), a ≠ t!"dist-info" → Dict.get fs2' (rel ++ a :: target) = Dict.get fs2 (rel ++ a :: target) := by
    intro a rel ha
    rw [D3 _ (hsib (Ne.symm ha)), if_neg]
    rintro ⟨_, e⟩
    exact hle (Ne.symm ha) e
  have hmem1 : ∀ f, f ∈ (installedFiles (n :: site) lines).filter (fun r => !isRelativeTo r (n :: site)) ↔
      Spec.Recorded (n :: site) lines f ∧ isRelativeTo f (n :: site) = false := by
    intro f
    rw [List.mem_filter, mem_installedFiles]
    simp
  have hbf : ∀ (a : Text), Dict.get fs (a :: target) = none := fun a =>
    below_none hg target hfresh _ (List.suffix_cons _ _)
  refine ⟨U1, ?_, ?_, ?_, ?_, ?_, ?_, ?_, ?_, ?_, ?_, ?_, ?_, ?_⟩
  · intro p hp ht
    have hn : ∀ a, ¬ a :: target <:+ p := fun a e => ht (suffix_cons_trans e)
    have hup : ∀ a, p <:+ a :: target ↔ p <:+ target := by
      intro a
      rw [List.suffix_cons_iff]
      constructor
      · rintro (e | e)
        · exfalso; rw [e] at ht; exact ht (List.suffix_cons _ _)
        · exact e
      · exact .inr
    rw [U2 p hp, D3 p (hn _), R2.outside p (hn _), R1.outside p (hn _)]
    simp only [hup]
    by_cases hc : Dict.get fs p = none ∧ p <:+ target
    · simp [hc]
    · simp [hc]
  · have : Dict.get fs3' (siteName :: target) = Dict.get fs1 (siteName :: target) := by
      have e3 := hpass3 siteName [] hne.2
      have e2 := hpass2 siteName [] hne.1
      simp only [List.nil_append] at e2 e3
      rw [U2 (siteName :: target) (fun e => hnoenv (rel := []) e), e3, e2]
    rw [this]; exact R1.dir
  · intro hd
    exact uninstall_keeps_site w.pick n site lines fs2' fs3' hnames (by rw [henv3 site hsite]; exact hd) h4
  · intro hnp
    have hpd : (t!"purelib" : Text) ≠ t!"dist-info" := by decide
    have hpb : (t!"purelib" : Text) ≠ t!"bin" := by decide
    have := R1.outside (t!"purelib" :: target) (hsib (rel := []) hnp)
    rw [if_neg (by rintro ⟨_, e⟩; exact hle (rel := []) hnp e)] at this
    have e3 := hpass3 _ [] hpd
    have e2 := hpass2 _ [] hpb
    simp only [List.nil_append] at e2 e3
    rw [U2 (t!"purelib" :: target) (fun e => hnoenv (rel := []) e), e3, e2]
    exact this.trans (hbf _)
  · intro rel c hR hI hc
    rw [U2 _ hnoenv, hpass3 siteName rel hne.2, hpass2 siteName rel hne.1]
    exact R1.copied rel c ((hmem1 _).2 ⟨hR, hI⟩) hc
  · intro rel c hc
    rw [U2 _ hnoenv, hpass3 siteName rel hne.2, hpass2 siteName rel hne.1] at hc
    obtain ⟨a, b⟩ := R1.only rel c hc
    exact ⟨((hmem1 _).1 a).1, b⟩
  · intro rel c hR hI hS hE hc
    rw [U2 _ hnoenv, hpass3 _ rel (by decide)]
    apply R2.copied rel c
    · rw [List.mem_filter, R1.left, List.mem_filter]
      refine ⟨⟨(hmem1 _).2 ⟨hR, hI⟩, by simp [hS]⟩, ?_⟩
      simp only [Bool.or_eq_true, Bool.not_eq_true', List.contains_eq_mem, decide_eq_false_iff_not]
      exact .inr hE
    · rw [henv1 _ (hscr.trans (List.suffix_append _ _))]; exact hc
  · intro rel c hc
    rw [U2 _ hnoenv, hpass3 _ rel (by decide)] at hc
    obtain ⟨a, b⟩ := R2.only rel c hc
    rw [henv1 _ (hscr.trans (List.suffix_append _ _))] at b
    rw [List.mem_filter, R1.left, List.mem_filter] at a
    refine ⟨((hmem1 _).1 a.1.1).1, ?_, b⟩
    have h2 := a.2
    simp only [Bool.or_eq_true, Bool.not_eq_true', List.contains_eq_mem, decide_eq_false_iff_not] at h2
    rcases h2 with e | e
    · rw [showPath_prefix w.scripts _ (List.suffix_append _ _)] at e; cases e
    · exact e
  · intro rel
    rw [U2 _ hnoenv, D2]
    exact henv2 _ ((hsite.trans (List.suffix_cons n _)).trans (List.suffix_append _ _))
  · exact ⟨hbf _, hbf _, hbf _⟩
  · exact U3
  · intro k m hk hm
    rw [← henv3 k hk]; exact U4.1 k m hm
  · intro k c hk hc hn
    exact U4.2 k c (by rw [henv3 k hk]; exact hc) hn

end SharedPkg
end Pkm
