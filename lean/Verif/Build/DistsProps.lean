import Verif.Build.Dists
import Verif.Collections.Lemmas
import Verif.Repos.DistFilesProps
import Verif.Tags.Props
/-
Property C74: the source distributions and wheels that pkm builds.
-/
set_option linter.unusedVariables false
set_option linter.unusedSimpArgs false

namespace Pkm
namespace Spec
open Dists
variable {C : Type}

/-- A project directory as file systems have them: no file twice, and no slash in a name. -/
structure Disk (t : Tree C) : Prop where
  once : (t.map Prod.fst).Nodup
  names : ∀ f ∈ t, f.1 ≠ [] ∧ ∀ n ∈ f.1, '/' ∉ n

/-- The names of the files of a dist-info directory. -/
structure InfoNames (info : Info C) : Prop where
  once : (info.map Prod.fst).Nodup
  names : ∀ x ∈ info, '/' ∉ x.1 ∧ x.1 ≠ t!"RECORD"

/-- There is a file somewhere below the directory. -/
def HasDir (t : Tree C) (d : Rel) : Prop := ∃ rest c, rest ≠ [] ∧ (d ++ rest, c) ∈ t

/-- The name of a directory. -/
def Named (p : Rel) (n : Text) : Prop := ∃ parent, p = parent ++ [n]

end Spec

namespace Dists
open Spec
open Files (Rec joinSlash)
variable {C S : Type}

/-! ### trees -/

theorem mem_under (t : Tree C) (d r : Rel) (c : C) : (r, c) ∈ under t d ↔ r ≠ [] ∧ (d ++ r, c) ∈ t := by
  unfold under
  rw [List.mem_filterMap]
  constructor
  · rintro ⟨⟨q, c'⟩, hq, h⟩
    dsimp only at h
    split at h
    · rename_i hc
      simp only [Bool.and_eq_true, List.isPrefixOf_iff_prefix, decide_eq_true_eq] at hc
      obtain ⟨⟨s, rfl⟩, hl⟩ := hc
      simp only [List.length_append] at hl
      simp only [List.drop_left, Option.some.injEq, Prod.mk.injEq] at h
      obtain ⟨rfl, rfl⟩ := h
      refine ⟨?_, hq⟩
      intro e; subst e; simp at hl
    · cases h
  · rintro ⟨hne, hm⟩
    refine ⟨_, hm, ?_⟩
    have : 0 < r.length := List.length_pos_iff.2 hne
    simp [List.isPrefixOf_iff_prefix, this]

theorem isDir_iff (t : Tree C) (d : Rel) : isDir t d = true ↔ HasDir t d := by
  unfold isDir HasDir
  constructor
  · intro h
    cases e : under t d with
    | nil => simp [e] at h
    | cons x xs =>
      obtain ⟨r, c⟩ := x
      have := (mem_under t d r c).1 (by rw [e]; simp)
      exact ⟨r, c, this.1, this.2⟩
  · rintro ⟨r, c, h1, h2⟩
    have := (mem_under t d r c).2 ⟨h1, h2⟩
    cases e : under t d with
    | nil => rw [e] at this; cases this
    | cons x xs => rfl

theorem distinct_mem {T : Type} [DecidableEq T] (xs : List T) (y : T) : y ∈ Coll.distinctLoop id [] xs ↔ y ∈ xs := by
  constructor
  · intro h; exact (Coll.distinctLoop_sublist id xs []).subset h
  · intro h
    rw [Coll.distinctLoop_mem]
    obtain ⟨pre, post, e, hn⟩ := List.eq_append_cons_of_mem h
    exact ⟨pre, post, e, by simp, by simpa using hn⟩

theorem distinct_nodup {T : Type} [DecidableEq T] (xs : List T) : (Coll.distinctLoop id [] xs).Nodup := by
  have := (Coll.distinctLoop_nodup id xs []).1
  simpa using this

theorem mem_topDirs (t : Tree C) (d : Text) : d ∈ topDirs t ↔ HasDir t [d] := by
  unfold topDirs
  rw [distinct_mem, List.mem_filterMap]
  constructor
  · rintro ⟨⟨q, c⟩, hq, h⟩
    match q, h with
    | a :: b :: q, h =>
      simp only [topDir, Option.some.injEq] at h
      subst h
      exact ⟨b :: q, c, by simp, hq⟩
  · rintro ⟨r, c, hr, hm⟩
    refine ⟨_, hm, ?_⟩
    match r, hr with
    | b :: r, _ => rfl

theorem topDirs_nodup (t : Tree C) : (topDirs t).Nodup := distinct_nodup _

theorem lastName_of {p : Rel} {n : Text} (h : Named p n) : lastName p = n := by
  obtain ⟨d, rfl⟩ := h
  simp [lastName]

theorem named_last {p : Rel} (h : p ≠ []) : Named p (lastName p) := by
  refine ⟨p.dropLast, ?_⟩
  have := List.dropLast_concat_getLast h
  rw [lastName, List.getLast?_eq_some_getLast h]
  exact this.symm

theorem mem_copied (t : Tree C) (p : Rel) (n : Text) (r : Rel) (c : C) :
    (r, c) ∈ copied t p n ↔ ∃ rest, r = n :: rest ∧ rest ≠ [] ∧ (p ++ rest, c) ∈ t ∧ pycache ∉ rest := by
  unfold copied
  simp only [List.mem_map, List.mem_filter]
  constructor
  · rintro ⟨⟨q, c'⟩, ⟨hq, hp⟩, h⟩
    simp only [Prod.mk.injEq] at h
    obtain ⟨rfl, rfl⟩ := h
    have := (mem_under t p q c').1 hq
    refine ⟨q, rfl, this.1, this.2, ?_⟩
    simpa using hp
  · rintro ⟨q, rfl, h1, h2, h3⟩
    exact ⟨(q, c), ⟨(mem_under t p q c).2 ⟨h1, h2⟩, by simpa using h3⟩, rfl⟩

/-- When the copying of packages succeeds. -/
theorem copySources_ok (t : Tree C) (ps : List Rel) : ∀ taken,
    (∃ r, copySources t ps taken = .ok r) ↔
      (∀ p ∈ ps, HasDir t p) ∧ (ps.map lastName).Nodup ∧ ∀ p ∈ ps, lastName p ∉ taken := by
  induction ps with
  | nil => intro taken; simp [copySources]
  | cons p ps ih =>
    intro taken
    unfold copySources
    by_cases hd : isDir t p = true
    · have hx : ex t p = true := by simp [ex, hd]
      rw [if_neg (by simp [hx]), if_neg (by simp [hd])]
      by_cases ht : lastName p ∈ taken
      · rw [if_pos (by simpa using ht)]
        constructor
        · rintro ⟨r, h⟩; cases h
        · rintro ⟨_, _, h⟩; exact absurd ht (h p (by simp))
      · rw [if_neg (by simpa using ht)]
        have hi := ih (lastName p :: taken)
        constructor
        · rintro ⟨r, h⟩
          split at h
          · cases h
          · rename_i r' hr'
            obtain ⟨h1, h2, h3⟩ := hi.1 ⟨r', hr'⟩
            refine ⟨?_, ?_, ?_⟩
            · intro q hq
              rcases List.mem_cons.1 hq with rfl | hq
              · exact (isDir_iff t _).1 hd
              · exact h1 q hq
            · simp only [List.map_cons, List.nodup_cons]
              refine ⟨?_, h2⟩
              intro hm
              obtain ⟨q, hq, e⟩ := List.mem_map.1 hm
              exact h3 q hq (by simp [e])
            · intro q hq
              rcases List.mem_cons.1 hq with rfl | hq
              · exact ht
              · intro hh; exact h3 q hq (by simp [hh])
        · rintro ⟨h1, h2, h3⟩
          simp only [List.map_cons, List.nodup_cons] at h2
          obtain ⟨r, hr⟩ := hi.2 ⟨fun q hq => h1 q (by simp [hq]), h2.2, fun q hq hh => by
            rcases List.mem_cons.1 hh with e | hh
            · exact h2.1 (e ▸ List.mem_map_of_mem hq)
            · exact h3 q (by simp [hq]) hh⟩
          rw [hr]
          exact ⟨_, rfl⟩
    · have hne : ¬ HasDir t p := fun h => hd ((isDir_iff t p).2 h)
      constructor
      · rintro ⟨r, h⟩
        split at h
        · cases h
        · rw [if_pos (by simpa using hd)] at h; cases h
      · rintro ⟨h, _, _⟩; exact absurd (h p (by simp)) hne

theorem copySources_mem (t : Tree C) (ps : List Rel) : ∀ taken s, copySources t ps taken = .ok s → ∀ r c,
    (r, c) ∈ s ↔ ∃ p ∈ ps, ∃ rest, r = lastName p :: rest ∧ rest ≠ [] ∧ (p ++ rest, c) ∈ t ∧ pycache ∉ rest := by
  induction ps with
  | nil => intro taken s h r c; simp [copySources] at h; subst h; simp
  | cons p ps ih =>
    intro taken s h r c
    unfold copySources at h
    split at h
    · cases h
    · split at h
      · cases h
      · split at h
        · cases h
        · split at h
          · cases h
          · rename_i r' hr'
            cases h
            rw [List.mem_append, mem_copied, ih _ _ hr']
            simp only [List.mem_cons, exists_eq_or_imp]

theorem under_nodup (t : Tree C) (d : Rel) (h : (t.map Prod.fst).Nodup) : ((under t d).map Prod.fst).Nodup := by
  unfold under
  rw [List.map_filterMap]
  induction t with
  | nil => simp
  | cons f t ih =>
    simp only [List.map_cons, List.nodup_cons] at h
    rw [List.filterMap_cons]
    split
    · exact ih h.2
    · rename_i r hr
      rw [List.nodup_cons]
      refine ⟨?_, ih h.2⟩
      intro hm
      obtain ⟨g, hg, he⟩ := List.mem_filterMap.1 hm
      apply h.1
      have key : ∀ f : Rel × C, ∀ r, Option.map Prod.fst
          (if (d.isPrefixOf f.1 && decide (d.length < f.1.length)) = true then some (f.1.drop d.length, f.2) else none) = some r →
          f.1 = d ++ r := by
        intro f r h
        split at h
        · rename_i hc
          simp only [Bool.and_eq_true, List.isPrefixOf_iff_prefix] at hc
          obtain ⟨⟨s, hs⟩, _⟩ := hc
          simp only [Option.map_some, Option.some.injEq] at h
          rw [← hs] at h
          rw [List.drop_left] at h
          rw [← h, hs]
        · cases h
      rw [key f r hr, ← key g r he]
      exact List.mem_map_of_mem hg

theorem copied_nodup (t : Tree C) (p : Rel) (n : Text) (h : (t.map Prod.fst).Nodup) :
    ((copied t p n).map Prod.fst).Nodup := by
  unfold copied
  rw [List.map_map]
  have h1 := under_nodup t p h
  have h2 := List.Nodup.sublist ((List.filter_sublist (p := fun f : Rel × C => !(f.1.contains pycache))
    (l := under t p)).map Prod.fst) h1
  have : ((List.filter (fun f : Rel × C => !(f.1.contains pycache)) (under t p)).map Prod.fst).map (n :: ·) |>.Nodup :=
    (List.pairwise_map.2 (h2.imp (fun hab he => hab (by simpa using he))))
  rw [List.map_map] at this
  exact this

theorem copySources_nodup (t : Tree C) (ht : (t.map Prod.fst).Nodup) (ps : List Rel) : ∀ taken s,
    copySources t ps taken = .ok s → (s.map Prod.fst).Nodup ∧ ∀ f ∈ s, ∃ a b rest, f.1 = a :: b :: rest ∧ a ∉ taken := by
  induction ps with
  | nil => intro taken s h; simp [copySources] at h; subst h; simp
  | cons p ps ih =>
    intro taken s h
    unfold copySources at h
    split at h
    · cases h
    · split at h
      · cases h
      · split at h
        · cases h
        · rename_i hnt
          split at h
          · cases h
          · rename_i r' hr'
            cases h
            obtain ⟨h1, h2⟩ := ih _ _ hr'
            refine ⟨?_, ?_⟩
            · rw [List.map_append, List.nodup_append]
              refine ⟨copied_nodup t p _ ht, h1, ?_⟩
              intro a ha b hb e
              subst e
              obtain ⟨⟨q, c⟩, hq, rfl⟩ := List.mem_map.1 ha
              obtain ⟨⟨q', c'⟩, hq', e'⟩ := List.mem_map.1 hb
              obtain ⟨rest, e1, _⟩ := (mem_copied t p _ q c).1 hq
              obtain ⟨a', b', rest', e2, hn⟩ := h2 _ hq'
              dsimp only at e' e2
              subst e'
              rw [e1] at e2
              simp only [List.cons.injEq] at e2
              apply hn
              simp [← e2.1]
            · intro f hf
              rcases List.mem_append.1 hf with hf | hf
              · obtain ⟨rest, e1, hr, _⟩ := (mem_copied t p _ f.1 f.2).1 hf
                match rest, hr with
                | b :: rest, _ => exact ⟨_, b, rest, e1, by simpa using hnt⟩
              · obtain ⟨a, b, rest, e, hn⟩ := h2 f hf
                exact ⟨a, b, rest, e, fun hh => hn (by simp [hh])⟩

/-! ### the contents of a wheel -/

theorem srcPackages_src (t : Tree C) (h : HasDir t [src]) :
    srcPackages [] t = (topDirs (under t [src])).map (fun d => [src, d]) := by
  simp [srcPackages, (isDir_iff t [src]).2 h]

theorem srcPackages_root (t : Tree C) (h : ¬ HasDir t [src]) :
    srcPackages [] t = (topDirs t).map (fun d => [d]) := by
  have : isDir t [src] = false := by
    cases e : isDir t [src] with
    | false => rfl
    | true => exact absurd ((isDir_iff t _).1 e) h
  simp [srcPackages, this]

theorem srcPackages_set (ps : List Rel) (t : Tree C) (h : ps ≠ []) : srcPackages ps t = ps := by
  cases ps with
  | nil => exact absurd rfl h
  | cons p ps => simp [srcPackages]

/-- A plain wheel is made of the dist-info files and the copied packages. -/
theorem buildWheel_plain (hash : C → S) (di : Text) (info : Info C) (ps : List Rel) (t : Tree C) (w : Wheel C S)
    (h : buildWheel hash di info ps t none = .ok w) :
    ∃ s, copySources t (srcPackages ps t) [di] = .ok s ∧ w.files = info.map (fun x => ([di, x.1], x.2)) ++ s ∧
      w.records = signAll hash w.files := by
  simp only [buildWheel] at h
  split at h
  · cases h
  · rename_i s hs
    cases h
    exact ⟨s, hs, rfl, rfl⟩

theorem wheel_mem (hash : C → S) (di : Text) (info : Info C) (ps : List Rel) (t : Tree C) (w : Wheel C S)
    (h : buildWheel hash di info ps t none = .ok w) (r : Rel) (c : C) : (r, c) ∈ w.files ↔
      (∃ x, (x, c) ∈ info ∧ r = [di, x]) ∨
      ∃ p ∈ srcPackages ps t, ∃ rest, r = lastName p :: rest ∧ rest ≠ [] ∧ (p ++ rest, c) ∈ t ∧ pycache ∉ rest := by
  obtain ⟨s, hs, hf, _⟩ := buildWheel_plain hash di info ps t w h
  rw [hf, List.mem_append, copySources_mem t _ _ s hs]
  refine or_congr ?_ Iff.rfl
  simp only [List.mem_map, Prod.mk.injEq]
  constructor
  · rintro ⟨x, hx, rfl, rfl⟩; exact ⟨x.1, hx, rfl⟩
  · rintro ⟨x, hx, rfl⟩; exact ⟨_, hx, rfl, rfl⟩

/-- C74: for a project with a `src` directory and without configured packages, the wheel contains the files of its
dist-info and, at the same place below its root, every file below a directory of `src` that is not in a
`__pycache__` further down, and nothing else. -/
theorem wheel_contents_src (hash : C → S) (di : Text) (info : Info C) (t : Tree C) (w : Wheel C S)
    (hsrc : HasDir t [src]) (h : buildWheel hash di info [] t none = .ok w) (r : Rel) (c : C) :
    (r, c) ∈ w.files ↔ (∃ x, (x, c) ∈ info ∧ r = [di, x]) ∨
      ∃ d rest, r = d :: rest ∧ rest ≠ [] ∧ (src :: d :: rest, c) ∈ t ∧ pycache ∉ rest := by
  rw [wheel_mem hash di info [] t w h, srcPackages_src t hsrc]
  refine or_congr Iff.rfl ?_
  simp only [List.mem_map]
  constructor
  · rintro ⟨p, ⟨d, hd, rfl⟩, rest, rfl, h1, h2, h3⟩
    exact ⟨d, rest, rfl, h1, h2, h3⟩
  · rintro ⟨d, rest, rfl, h1, h2, h3⟩
    refine ⟨_, ⟨d, ?_, rfl⟩, rest, rfl, h1, h2, h3⟩
    rw [mem_topDirs]
    exact ⟨rest, c, h1, (mem_under t [src] _ c).2 ⟨by simp, h2⟩⟩

/-- C74: a project without `src` and without configured packages: all directories of the project. -/
theorem wheel_contents_root (hash : C → S) (di : Text) (info : Info C) (t : Tree C) (w : Wheel C S)
    (hsrc : ¬ HasDir t [src]) (h : buildWheel hash di info [] t none = .ok w) (r : Rel) (c : C) :
    (r, c) ∈ w.files ↔ (∃ x, (x, c) ∈ info ∧ r = [di, x]) ∨
      ∃ d rest, r = d :: rest ∧ rest ≠ [] ∧ (r, c) ∈ t ∧ pycache ∉ rest := by
  rw [wheel_mem hash di info [] t w h, srcPackages_root t hsrc]
  refine or_congr Iff.rfl ?_
  simp only [List.mem_map]
  constructor
  · rintro ⟨p, ⟨d, hd, rfl⟩, rest, rfl, h1, h2, h3⟩
    exact ⟨d, rest, rfl, h1, h2, h3⟩
  · rintro ⟨d, rest, rfl, h1, h2, h3⟩
    refine ⟨_, ⟨d, ?_, rfl⟩, rest, rfl, h1, h2, h3⟩
    rw [mem_topDirs]
    exact ⟨rest, c, h1, h2⟩

/-- C74: a project that configures its packages: each package with its files under the package's own name. -/
theorem wheel_contents_configured (hash : C → S) (di : Text) (info : Info C) (ps : List Rel) (t : Tree C)
    (w : Wheel C S) (hps : ps ≠ []) (hne : [] ∉ ps) (h : buildWheel hash di info ps t none = .ok w) (r : Rel) (c : C) :
    (r, c) ∈ w.files ↔ (∃ x, (x, c) ∈ info ∧ r = [di, x]) ∨
      ∃ p ∈ ps, ∃ n rest, Named p n ∧ r = n :: rest ∧ rest ≠ [] ∧ (p ++ rest, c) ∈ t ∧ pycache ∉ rest := by
  rw [wheel_mem hash di info ps t w h, srcPackages_set ps t hps]
  refine or_congr Iff.rfl ?_
  constructor
  · rintro ⟨p, hp, rest, rfl, h1⟩
    exact ⟨p, hp, _, rest, named_last (fun e => hne (e ▸ hp)), rfl, h1⟩
  · rintro ⟨p, hp, n, rest, hn, rfl, h1⟩
    exact ⟨p, hp, rest, by rw [lastName_of hn], h1⟩

/-- C74: and it can be built exactly if every package is a directory of the project, no two have the same name and none
has the name of the dist-info directory. -/
theorem configured_built_iff (hash : C → S) (di : Text) (info : Info C) (ps : List Rel) (t : Tree C)
    (hps : ps ≠ []) : (∃ w, buildWheel hash di info ps t none = .ok w) ↔
      (∀ p ∈ ps, HasDir t p) ∧ (ps.map lastName).Nodup ∧ ∀ p ∈ ps, lastName p ≠ di := by
  have := copySources_ok t ps [di]
  simp only [List.mem_singleton] at this
  rw [← this]
  simp only [buildWheel, srcPackages_set ps t hps]
  constructor
  · rintro ⟨w, h⟩
    split at h
    · cases h
    · exact ⟨_, by assumption⟩
  · rintro ⟨s, h⟩
    rw [h]
    exact ⟨_, rfl⟩

/-- C74: a project that does not configure packages can always be built, unless a directory is called like the
dist-info directory. -/
theorem default_built (hash : C → S) (di : Text) (info : Info C) (t : Tree C)
    (h1 : HasDir t [src] → ¬ HasDir t [src, di]) (h2 : ¬ HasDir t [src] → ¬ HasDir t [di]) :
    ∃ w, buildWheel hash di info [] t none = .ok w := by
  suffices ∃ s, copySources t (srcPackages [] t) [di] = .ok s by
    obtain ⟨s, hs⟩ := this
    simp only [buildWheel, hs]
    exact ⟨_, rfl⟩
  rw [copySources_ok]
  by_cases hsrc : HasDir t [src]
  · rw [srcPackages_src t hsrc]
    have hm : ((topDirs (under t [src])).map (fun d => [src, d])).map lastName = topDirs (under t [src]) := by
      rw [List.map_map]
      conv => rhs; rw [← List.map_id (topDirs (under t [src]))]
      rfl
    have hd : ∀ d ∈ topDirs (under t [src]), HasDir t [src, d] := by
      intro d hd
      obtain ⟨rest, c, hr, hh⟩ := (mem_topDirs _ d).1 hd
      exact ⟨rest, c, hr, ((mem_under t [src] _ c).1 hh).2⟩
    refine ⟨?_, by rw [hm]; exact topDirs_nodup _, ?_⟩
    · intro p hp
      obtain ⟨d, hd', rfl⟩ := List.mem_map.1 hp
      exact hd d hd'
    · intro p hp
      obtain ⟨d, hd', rfl⟩ := List.mem_map.1 hp
      intro e
      have : d = di := by simpa [lastName] using e
      subst this
      exact h1 hsrc (hd d hd')
  · rw [srcPackages_root t hsrc]
    have hm : ((topDirs t).map (fun d => [d])).map lastName = topDirs t := by
      rw [List.map_map]
      conv => rhs; rw [← List.map_id (topDirs t)]
      rfl
    refine ⟨?_, by rw [hm]; exact topDirs_nodup _, ?_⟩
    · intro p hp
      obtain ⟨d, hd', rfl⟩ := List.mem_map.1 hp
      exact (mem_topDirs t d).1 hd'
    · intro p hp
      obtain ⟨d, hd', rfl⟩ := List.mem_map.1 hp
      intro e
      have : d = di := by simpa [lastName] using e
      subst this
      exact h2 hsrc ((mem_topDirs t d).1 hd')

/-! ### RECORD -/

theorem joinSlash_inj {a b : Rel} (ha : a ≠ []) (hb : b ≠ []) (ha' : ∀ n ∈ a, '/' ∉ n) (hb' : ∀ n ∈ b, '/' ∉ n)
    (h : joinSlash a = joinSlash b) : a = b := by
  rw [← Files.splitOn_joinSlash a ha ha', ← Files.splitOn_joinSlash b hb hb', h]

/-- The files of a wheel are distinct, and named without slashes. -/
theorem wheel_disk (hash : C → S) (di : Text) (info : Info C) (ps : List Rel) (t : Tree C) (w : Wheel C S)
    (ht : Disk t) (hi : InfoNames info) (hd : '/' ∉ di) (hne : [] ∉ ps)
    (h : buildWheel hash di info ps t none = .ok w) :
    Disk w.files ∧ [di, t!"RECORD"] ∉ w.files.map Prod.fst := by
  obtain ⟨s, hs, hf, _⟩ := buildWheel_plain hash di info ps t w h
  obtain ⟨hn, hsh⟩ := copySources_nodup t ht.once _ _ s hs
  refine ⟨⟨?_, ?_⟩, ?_⟩
  · rw [hf, List.map_append, List.nodup_append]
    refine ⟨?_, hn, ?_⟩
    · rw [List.map_map]
      have := List.pairwise_map.1 hi.once
      exact List.pairwise_map.2 (this.imp (fun hab he => hab (by simpa using he)))
    · intro a ha b hb e
      subst e
      obtain ⟨f, hf1, rfl⟩ := List.mem_map.1 hb
      obtain ⟨a', b', rest, e, hnt⟩ := hsh f hf1
      simp only [List.map_map, List.mem_map, Function.comp] at ha
      obtain ⟨x, _, hx⟩ := ha
      rw [e] at hx
      simp only [List.cons.injEq] at hx
      exact hnt (by simp [hx.1])
  · rintro ⟨r, c⟩ hm
    rcases (wheel_mem hash di info ps t w h r c).1 hm with ⟨x, hx, rfl⟩ | ⟨p, hp, rest, rfl, h1, h2, h3⟩
    · refine ⟨by simp, ?_⟩
      intro n hn
      simp only [List.mem_cons, List.not_mem_nil, or_false] at hn
      rcases hn with rfl | rfl
      · exact hd
      · exact (hi.names _ hx).1
    · refine ⟨by simp, ?_⟩
      have hall := (ht.names _ h2).2
      have hpn : p ≠ [] := by
        rintro rfl
        by_cases hpe : ps = []
        · subst hpe
          by_cases hsrc : HasDir t [src]
          · rw [srcPackages_src t hsrc] at hp; simp at hp
          · rw [srcPackages_root t hsrc] at hp; simp at hp
        · rw [srcPackages_set ps t hpe] at hp; exact hne hp
      intro n hn
      rcases List.mem_cons.1 hn with rfl | hn
      · apply hall
        dsimp only
        rw [List.mem_append]
        left
        rw [lastName, List.getLast?_eq_some_getLast hpn]
        exact List.getLast_mem hpn
      · apply hall
        simp [hn]
  · intro hm
    obtain ⟨⟨r, c⟩, hm, e⟩ := List.mem_map.1 hm
    dsimp only at e
    subst e
    rw [hf] at hm
    rcases List.mem_append.1 hm with hm | hm
    · obtain ⟨x, hx, e⟩ := List.mem_map.1 hm
      simp only [Prod.mk.injEq, List.cons.injEq, and_true, true_and] at e
      exact (hi.names x hx).2 e.1
    · obtain ⟨a, b, rest, e, hnt⟩ := hsh _ hm
      dsimp only at e
      simp only [List.cons.injEq] at e
      exact hnt (by simp [e.1])

theorem signed_files (hash : C → S) (files : Tree C) (h : Disk files) (r : Rel) (c : C) (hm : (r, c) ∈ files) :
    SignedAs (signAll hash files) (joinSlash r) (hash c) := by
  obtain ⟨pre, post, rfl⟩ := List.append_of_mem hm
  refine ⟨signAll hash pre, signAll hash post, by simp [signAll], ?_⟩
  intro x hx e
  obtain ⟨⟨q, d⟩, hq, rfl⟩ := List.mem_map.1 hx
  dsimp only at e
  have hq' : (q, d) ∈ pre ++ (r, c) :: post := by simp [hq]
  have := joinSlash_inj (h.names _ hq').1 (h.names _ hm).1 (h.names _ hq').2 (h.names _ hm).2 e
  subst this
  have ho := h.once
  simp only [List.map_append, List.map_cons] at ho
  rw [List.nodup_append] at ho
  have := (List.nodup_cons.1 ho.2.1).1
  exact this (List.mem_map.2 ⟨_, hq, rfl⟩)

theorem verify_all (valid : S → C → Option Bool) (content di : Files.Path) (records : List (Rec S)) :
    ∀ files : List (Files.Path × C),
    (∀ f ∈ files, Files.verifyFile valid content di records f.1 f.2 = .ok false) →
    Files.verifyLoop valid content di records files = .ok [] := by
  intro files
  induction files with
  | nil => intro _; rfl
  | cons f files ih =>
    intro h
    have h1 := h f (by simp)
    have h2 := ih (fun g hg => h g (by simp [hg]))
    simp only [Files.verifyLoop, h1, h2]
    rfl

/-- The verification of an unpacked tree of files signed in RECORD. -/
theorem signed_tree_verifies (valid : S → C → Option Bool) (hash : C → S) (hv : ∀ c, valid (hash c) c = some true)
    (files : Tree C) (di : Text) (hd : '/' ∉ di) (h : Disk files) (hr : [di, t!"RECORD"] ∉ files.map Prod.fst)
    (content : Files.Path) (rec : C) :
    Files.verifyRecords valid content (di :: content) true (signAll hash files)
      (files.map (fun f => (f.1.reverse ++ content, f.2)) ++ [(t!"RECORD" :: di :: content, rec)]) = .ok [] := by
  unfold Files.verifyRecords
  rw [if_pos rfl]
  apply verify_all
  intro f hf
  rcases List.mem_append.1 hf with hf | hf
  · obtain ⟨⟨r, c⟩, hm, rfl⟩ := List.mem_map.1 hf
    have hp : Files.pathIn content (r.reverse ++ content) = some (joinSlash r) := by
      rw [Files.pathIn_below content r.reverse (by simpa using (h.names _ hm).1), List.reverse_reverse]
    have hs := (Files.recordFor_sig _ _ _).2 (signed_files hash files h r c hm)
    simp only [Files.verifyFile, hp, Option.bind_some, hs, hv]
  · simp only [List.mem_singleton] at hf
    subst hf
    have hp : Files.pathIn content ([t!"RECORD", di] ++ content) = some (joinSlash [di, t!"RECORD"]) := by
      rw [Files.pathIn_below content _ (by simp)]; rfl
    have hs : (Files.recordFor (signAll hash files) (joinSlash [di, t!"RECORD"])).bind (·.sig) = none := by
      cases e : (Files.recordFor (signAll hash files) (joinSlash [di, t!"RECORD"])).bind (·.sig) with
      | none => rfl
      | some s =>
        obtain ⟨a, b, he, _⟩ := (Files.recordFor_sig _ _ _).1 e
        have : (⟨joinSlash [di, t!"RECORD"], some s⟩ : Rec S) ∈ signAll hash files := by rw [he]; simp
        obtain ⟨⟨q, d⟩, hq, hx⟩ := List.mem_map.1 this
        simp only [Rec.mk.injEq] at hx
        have := joinSlash_inj (h.names _ hq).1 (by simp) (h.names _ hq).2 (by
          intro n hn
          simp only [List.mem_cons, List.not_mem_nil, or_false] at hn
          rcases hn with rfl | rfl
          · exact hd
          · decide) hx.1
        subst this
        exact absurd (List.mem_map.2 ⟨_, hq, rfl⟩) hr
    simp only [List.cons_append, List.nil_append] at hp
    simp only [Files.verifyFile, hp, Option.bind_some, hs]
    rw [if_pos (by rw [show "RECORD".toList = t!"RECORD" from by decide])]

/-- C74: RECORD lists the files of the wheel, each with the hash of its contents, in whatever way the wheel is
built. -/
theorem wheel_record_exact (hash : C → S) (di : Text) (info : Info C) (ps : List Rel) (t : Tree C)
    (ed : Option (Text × (List Rel → C))) (w : Wheel C S) (h : buildWheel hash di info ps t ed = .ok w) :
    w.records = w.files.map (fun f => ⟨joinSlash f.1, some (hash f.2)⟩) := by
  cases ed with
  | none =>
    obtain ⟨s, hs, hf, hr⟩ := buildWheel_plain hash di info ps t w h
    exact hr
  | some e =>
    simp only [buildWheel] at h
    cases h
    rfl

/-- C74: every wheel that pkm builds passes the verification of pkm's own installer, without a warning. -/
theorem built_wheel_verifies (valid : S → C → Option Bool) (hash : C → S) (hv : ∀ c, valid (hash c) c = some true)
    (di : Text) (info : Info C) (ps : List Rel) (t : Tree C) (w : Wheel C S)
    (ht : Disk t) (hi : InfoNames info) (hd : '/' ∉ di) (hne : [] ∉ ps)
    (h : buildWheel hash di info ps t none = .ok w) (content : Files.Path) (rec : C) :
    Files.verifyRecords valid content (di :: content) true w.records
      (w.files.map (fun f => (f.1.reverse ++ content, f.2)) ++ [(t!"RECORD" :: di :: content, rec)]) = .ok [] := by
  obtain ⟨h1, h2⟩ := wheel_disk hash di info ps t w ht hi hd hne h
  obtain ⟨s, hs, hf, hr⟩ := buildWheel_plain hash di info ps t w h
  rw [hr]
  exact signed_tree_verifies valid hash hv w.files di hd h1 h2 content rec

/-- C74: and so does every editable one. -/
theorem built_editable_verifies (valid : S → C → Option Bool) (hash : C → S) (hv : ∀ c, valid (hash c) c = some true)
    (di pth : Text) (enc : List Rel → C) (info : Info C) (ps : List Rel) (t : Tree C) (w : Wheel C S)
    (hi : InfoNames info) (hd : '/' ∉ di) (hp : '/' ∉ pth)
    (h : buildWheel hash di info ps t (some (pth, enc)) = .ok w) (content : Files.Path) (rec : C) :
    Files.verifyRecords valid content (di :: content) true w.records
      (w.files.map (fun f => (f.1.reverse ++ content, f.2)) ++ [(t!"RECORD" :: di :: content, rec)]) = .ok [] := by
  simp only [buildWheel] at h
  cases h
  apply signed_tree_verifies valid hash hv _ di hd
  · constructor
    · simp only [List.map_append, List.map_map, List.map_cons, List.map_nil]
      rw [List.nodup_append]
      refine ⟨?_, by simp, ?_⟩
      · have := List.pairwise_map.1 hi.once
        exact List.pairwise_map.2 (this.imp (fun hab he => hab (by simpa using he)))
      · intro a ha b hb e
        subst e
        simp only [List.mem_singleton] at hb
        subst hb
        simp at ha
    · intro f hf
      rcases List.mem_append.1 hf with hf | hf
      · obtain ⟨x, hx, rfl⟩ := List.mem_map.1 hf
        refine ⟨by simp, ?_⟩
        intro n hn
        simp only [List.mem_cons, List.not_mem_nil, or_false] at hn
        rcases hn with rfl | rfl
        · exact hd
        · exact (hi.names _ hx).1
      · simp only [List.mem_singleton] at hf
        subst hf
        simpa using hp
  · simp only [List.map_append, List.map_map, List.map_cons, List.map_nil, List.mem_append, List.mem_map,
      List.mem_singleton, Function.comp, not_or, not_exists, not_and, List.cons.injEq]
    refine ⟨?_, by simp⟩
    intro x hx _ e
    exact absurd e (by simpa using (hi.names x hx).2)

/-! ### editable wheels -/

/-- C74: an editable wheel links the parents of the packages, each once. -/
theorem editable_links (ps : List Rel) (t : Tree C) (l : Rel) :
    (l ∈ editableLinks ps t ↔ ∃ p ∈ srcPackages ps t, l = p.dropLast) ∧ (editableLinks ps t).Nodup := by
  refine ⟨?_, distinct_nodup _⟩
  unfold editableLinks
  rw [distinct_mem, List.mem_map]
  constructor
  · rintro ⟨p, hp, rfl⟩; exact ⟨p, hp, rfl⟩
  · rintro ⟨p, hp, rfl⟩; exact ⟨p, hp, rfl⟩

/-- C74: an editable installation offers every module that the wheel would install, at the same place: below one of
its links. -/
theorem editable_offers_all (hash : C → S) (di : Text) (info : Info C) (ps : List Rel) (t : Tree C) (w : Wheel C S)
    (hne : [] ∉ ps) (h : buildWheel hash di info ps t none = .ok w) (r : Rel) (c : C) (hm : (r, c) ∈ w.files) :
    (∃ x, (x, c) ∈ info ∧ r = [di, x]) ∨ ∃ l ∈ editableLinks ps t, (l ++ r, c) ∈ t := by
  rcases (wheel_mem hash di info ps t w h r c).1 hm with h1 | ⟨p, hp, rest, rfl, h1, h2, h3⟩
  · exact Or.inl h1
  · right
    have hpn : p ≠ [] := by
      rintro rfl
      by_cases hpe : ps = []
      · subst hpe
        by_cases hsrc : HasDir t [src]
        · rw [srcPackages_src t hsrc] at hp; simp at hp
        · rw [srcPackages_root t hsrc] at hp; simp at hp
      · rw [srcPackages_set ps t hpe] at hp; exact hne hp
    refine ⟨p.dropLast, ((editable_links ps t _).1).2 ⟨p, hp, rfl⟩, ?_⟩
    have : p.dropLast ++ lastName p :: rest = p ++ rest := by
      have e := List.dropLast_concat_getLast hpn
      rw [lastName, List.getLast?_eq_some_getLast hpn]
      conv => rhs; rw [← e]
      simp
    rw [this]
    exact h2

/-! ### what is missing from a wheel and what should not be in it -/

/-- C74 fails: a module that is not in a package (`src/module.py`) never gets into the wheel. -/
theorem top_module_violated (hash : C → S) (di : Text) (info : Info C) (t : Tree C) (w : Wheel C S) (m : Text) (c : C)
    (hm : ([src, m], c) ∈ t) (h : buildWheel hash di info [] t none = .ok w) : [m] ∉ w.files.map Prod.fst := by
  intro hh
  obtain ⟨⟨r, d⟩, hr, e⟩ := List.mem_map.1 hh
  dsimp only at e
  subst e
  rcases (wheel_contents_src hash di info t w ⟨[m], c, by simp, hm⟩ h _ d).1 hr with ⟨x, _, e⟩ | ⟨d', rest, e, hne, _⟩
  · simp at e
  · simp only [List.cons.injEq] at e
    exact hne e.2.symm

/-- C74 fails: without a `src` directory everything in any directory of the project is installed: earlier builds in
`dist`, the configuration of the project in `etc`, the history in `.git`, tests, virtual environments. -/
theorem whole_project_packed_violated (hash : C → S) (di : Text) (info : Info C) (t : Tree C) (w : Wheel C S)
    (hsrc : ¬ HasDir t [src]) (h : buildWheel hash di info [] t none = .ok w) (d f : Text) (c : C)
    (hm : ([d, f], c) ∈ t) (hf : f ≠ pycache) : ([d, f], c) ∈ w.files := by
  rw [wheel_contents_root hash di info t w hsrc h]
  exact Or.inr ⟨d, [f], rfl, by simp, hm, by simpa using fun e => hf e.symm⟩

/-- `dist` with an earlier wheel, `.git`, the package -/
def flat : Tree Nat :=
  [([t!"pyproject.toml"], 0), ([t!"demo", t!"__init__.py"], 1), ([t!"demo", pycache, t!"x.pyc"], 2),
   ([t!"dist", t!"1.0", t!"demo.whl"], 3), ([t!".git", t!"config"], 4)]

example : ∃ w, buildWheel (fun c => c) t!"demo-1.0.dist-info" [(t!"METADATA", 9)] [] flat none = .ok w ∧
    w.files.map Prod.fst = [[t!"demo-1.0.dist-info", t!"METADATA"], [t!"demo", t!"__init__.py"],
      [t!"dist", t!"1.0", t!"demo.whl"], [t!".git", t!"config"]] := ⟨_, rfl, by decide +kernel⟩

/-- C74 fails: the compiled modules in `src/__pycache__` are taken for a package. -/
theorem pycache_packed_violated (hash : C → S) (di : Text) (info : Info C) (t : Tree C) (w : Wheel C S)
    (h : buildWheel hash di info [] t none = .ok w) (f : Text) (c : C)
    (hm : ([src, pycache, f], c) ∈ t) (hf : f ≠ pycache) : ([pycache, f], c) ∈ w.files := by
  rw [wheel_contents_src hash di info t w ⟨[pycache, f], c, by simp, hm⟩ h]
  exact Or.inr ⟨pycache, [f], rfl, by simp, hm, by simpa using fun e => hf e.symm⟩

/-- C74 fails: a configured package below another package is not installed where it is imported from: every file of
`a/b` goes to `b`. -/
theorem nested_package_violated (hash : C → S) (di : Text) (info : Info C) (t : Tree C) (w : Wheel C S)
    (a b : Text) (rest : Rel) (c : C) (h : buildWheel hash di info [[a, b]] t none = .ok w)
    (hm : (a :: b :: rest, c) ∈ t) (hr : rest ≠ []) (hp : pycache ∉ rest) (ha : a ≠ di) (hab : a ≠ b) :
    (b :: rest, c) ∈ w.files ∧ a :: b :: rest ∉ w.files.map Prod.fst := by
  constructor
  · rw [wheel_contents_configured hash di info _ t w (by simp) (by simp) h]
    exact Or.inr ⟨_, by simp, b, rest, ⟨[a], rfl⟩, rfl, hr, hm, hp⟩
  · intro hh
    obtain ⟨⟨r, d⟩, hr', e⟩ := List.mem_map.1 hh
    dsimp only at e
    subst e
    rcases (wheel_contents_configured hash di info _ t w (by simp) (by simp) h _ d).1 hr' with
      ⟨x, _, e⟩ | ⟨p, hp', n, rest', hn, e, _⟩
    · simp only [List.cons.injEq] at e
      exact ha e.1
    · simp only [List.mem_singleton] at hp'
      subst hp'
      have h1 := lastName_of hn
      simp only [lastName, List.getLast?_cons_cons, List.getLast?_singleton, Option.getD_some] at h1
      simp only [List.cons.injEq] at e
      exact hab (e.1.trans h1.symm)

/-- C74 fails: two packages of the same name in different directories cannot be built. -/
theorem same_name_violated (hash : C → S) (di : Text) (info : Info C) (t : Tree C) (a b n : Text) :
    ∀ w, buildWheel hash di info [[a, n], [b, n]] t none ≠ .ok w := by
  intro w h
  have := ((configured_built_iff hash di info [[a, n], [b, n]] t (by simp)).1 ⟨w, h⟩).2.1
  simp [lastName] at this

example : buildWheel (C := Nat) (S := Nat) id t!"d-1.dist-info" [] [[t!"x", t!"api"], [t!"y", t!"api"]]
    [([t!"x", t!"api", t!"__init__.py"], 1), ([t!"y", t!"api", t!"__init__.py"], 2)] none = .error .exists_ := by rfl

/-! ### source distributions -/

theorem wheel_ext (hash : C → S) (di : Text) (info : Info C) (ps : List Rel) (t t' : Tree C) (w w' : Wheel C S)
    (h : buildWheel hash di info ps t none = .ok w) (h' : buildWheel hash di info ps t' none = .ok w')
    (hh : ∀ r c, (∃ p ∈ srcPackages ps t, ∃ rest, r = lastName p :: rest ∧ rest ≠ [] ∧ (p ++ rest, c) ∈ t ∧ pycache ∉ rest) ↔
      (∃ p ∈ srcPackages ps t', ∃ rest, r = lastName p :: rest ∧ rest ≠ [] ∧ (p ++ rest, c) ∈ t' ∧ pycache ∉ rest)) :
    ∀ f, f ∈ w.files ↔ f ∈ w'.files := by
  rintro ⟨r, c⟩
  rw [wheel_mem hash di info ps t w h, wheel_mem hash di info ps t' w' h']
  exact or_congr Iff.rfl (hh r c)

/-- C74: the wheel built from an unpacked source distribution has the files of the wheel built from the project itself,
if the project does not configure packages. -/
theorem wheel_from_sdist (hash : C → S) (di : Text) (info : Info C) (t s : Tree C) (w w' : Wheel C S) (pi pp : C)
    (hs : buildSdist pi pp [] t = .ok s) (h : buildWheel hash di info [] t none = .ok w)
    (h' : buildWheel hash di info [] s none = .ok w') : ∀ f, f ∈ w.files ↔ f ∈ w'.files := by
  apply wheel_ext hash di info [] t s w w' h h'
  simp only [buildSdist, List.isEmpty_nil, if_true] at hs
  split at hs
  · cases hs
  · rename_i so hso
    cases hs
    intro r c
    rw [← copySources_mem t _ _ so hso r c]
    have hmem : ∀ q d, (src :: q, d) ∈ ([([t!"PKG-INFO"], pi), ([t!"pyproject.toml"], pp)] ++
        so.map (fun f => (src :: f.1, f.2)) : Tree C) ↔ (q, d) ∈ so := by
      intro q d
      simp only [List.mem_append, List.mem_cons, List.not_mem_nil, or_false, Prod.mk.injEq, List.cons.injEq]
      constructor
      · rintro ((⟨⟨e, _⟩, _⟩ | ⟨⟨e, _⟩, _⟩) | hh)
        · exact absurd e (by decide)
        · exact absurd e (by decide)
        · obtain ⟨g, hg, e⟩ := List.mem_map.1 hh
          simp only [Prod.mk.injEq, List.cons.injEq, true_and] at e
          obtain ⟨rfl, rfl⟩ := e
          exact hg
      · intro hh
        exact Or.inr (List.mem_map.2 ⟨_, hh, rfl⟩)
    have hshape : ∀ q d, (q, d) ∈ so → ∃ a rest, q = a :: rest ∧ rest ≠ [] ∧ pycache ∉ rest := by
      intro q d hq
      obtain ⟨p, _, rest, e, h1, _, h3⟩ := (copySources_mem t _ _ so hso q d).1 hq
      exact ⟨_, rest, e, h1, h3⟩
    generalize hS : ([([t!"PKG-INFO"], pi), ([t!"pyproject.toml"], pp)] ++
        so.map (fun f => (src :: f.1, f.2)) : Tree C) = sd at hmem ⊢
    by_cases hsrc : HasDir sd [src]
    · rw [srcPackages_src _ hsrc]
      constructor
      · intro hr
        obtain ⟨a, rest, rfl, h1, h3⟩ := hshape r c hr
        refine ⟨[src, a], List.mem_map.2 ⟨a, ?_, rfl⟩, rest, rfl, h1, (hmem _ c).2 hr, h3⟩
        rw [mem_topDirs]
        exact ⟨rest, c, h1, (mem_under _ _ _ c).2 ⟨by simp, (hmem _ c).2 hr⟩⟩
      · rintro ⟨p, hp, rest, rfl, h1, h2, h3⟩
        obtain ⟨a, ha, rfl⟩ := List.mem_map.1 hp
        exact (hmem _ c).1 h2
    · have hempty : so = [] := by
        cases so with
        | nil => rfl
        | cons f so =>
          obtain ⟨a, rest, e, h1, _⟩ := hshape f.1 f.2 (by simp)
          exact absurd ⟨f.1, f.2, by rw [e]; simp, (hmem f.1 f.2).2 (by simp)⟩ hsrc
      subst hempty
      rw [srcPackages_root _ hsrc]
      constructor
      · intro hr; cases hr
      · rintro ⟨p, hp, rest, rfl, h1, h2, h3⟩
        obtain ⟨a, ha, rfl⟩ := List.mem_map.1 hp
        rw [← hS] at h2
        cases rest with
        | nil => exact absurd rfl h1
        | cons b rest => simp at h2

/-- The files of a source distribution of a project that configures packages. -/
theorem sdist_mem (pi pp : C) (ps : List Rel) (t s : Tree C) (hps : ps ≠ []) (hs : buildSdist pi pp ps t = .ok s)
    (r : Rel) (c : C) (hr : 2 ≤ r.length) : (r, c) ∈ s ↔
      ∃ p ∈ ps, ∃ rest, r = lastName p :: rest ∧ rest ≠ [] ∧ (p ++ rest, c) ∈ t ∧ pycache ∉ rest := by
  have he : ps.isEmpty = false := by cases ps with
    | nil => exact absurd rfl hps
    | cons p ps => rfl
  simp only [buildSdist, he, Bool.false_eq_true, if_false, srcPackages_set ps t hps] at hs
  split at hs
  · cases hs
  · rename_i so hso
    cases hs
    rw [← copySources_mem t _ _ so hso r c, List.mem_append]
    constructor
    · rintro (hh | hh)
      · simp only [List.mem_cons, List.not_mem_nil, or_false, Prod.mk.injEq] at hh
        rcases hh with ⟨rfl, _⟩ | ⟨rfl, _⟩ <;> simp at hr
      · exact hh
    · exact Or.inr

/-- C74: the same for a project that configures packages, all of them directly in the project directory.
Missing: packages in other directories, see `sdist_nested_violated`. -/
theorem wheel_from_sdist_partial (hash : C → S) (di : Text) (info : Info C) (ps : List Rel) (t s : Tree C)
    (w w' : Wheel C S) (pi pp : C) (hps : ps ≠ []) (h1 : ∀ p ∈ ps, ∃ n, p = [n])
    (hs : buildSdist pi pp ps t = .ok s) (h : buildWheel hash di info ps t none = .ok w)
    (h' : buildWheel hash di info ps s none = .ok w') : ∀ f, f ∈ w.files ↔ f ∈ w'.files := by
  apply wheel_ext hash di info ps t s w w' h h'
  intro r c
  rw [srcPackages_set ps t hps, srcPackages_set ps s hps]
  constructor
  · rintro ⟨p, hp, rest, rfl, a1, a2, a3⟩
    refine ⟨p, hp, rest, rfl, a1, ?_, a3⟩
    obtain ⟨n, rfl⟩ := h1 p hp
    cases rest with
    | nil => exact absurd rfl a1
    | cons b rest =>
      rw [sdist_mem pi pp ps t s hps hs _ c (by simp)]
      exact ⟨_, hp, b :: rest, rfl, a1, a2, a3⟩
  · rintro ⟨p, hp, rest, rfl, a1, a2, a3⟩
    obtain ⟨n, rfl⟩ := h1 p hp
    cases rest with
    | nil => exact absurd rfl a1
    | cons b rest =>
      rw [sdist_mem pi pp ps t s hps hs _ c (by simp)] at a2
      obtain ⟨q, hq, rest', e, b1, b2, b3⟩ := a2
      simp only [List.singleton_append, List.cons.injEq] at e
      obtain ⟨m, rfl⟩ := h1 q hq
      obtain ⟨e1, rfl⟩ := e
      exact ⟨_, hq, b :: rest, by simp only [lastName] at *; simp_all, a1, b2, b3⟩

/-- C74: and that wheel can be built, provided each package has a file outside of `__pycache__`. -/
theorem sdist_buildable_partial (hash : C → S) (di : Text) (info : Info C) (ps : List Rel) (t s : Tree C)
    (w : Wheel C S) (pi pp : C) (hps : ps ≠ []) (h1 : ∀ p ∈ ps, ∃ n, p = [n])
    (hf : ∀ p ∈ ps, ∃ rest c, rest ≠ [] ∧ (p ++ rest, c) ∈ t ∧ pycache ∉ rest)
    (hs : buildSdist pi pp ps t = .ok s) (h : buildWheel hash di info ps t none = .ok w) :
    ∃ w', buildWheel hash di info ps s none = .ok w' := by
  obtain ⟨_, b, c⟩ := (configured_built_iff hash di info ps t hps).1 ⟨w, h⟩
  refine (configured_built_iff hash di info ps s hps).2 ⟨?_, b, c⟩
  intro p hp
  obtain ⟨rest, d, a1, a2, a3⟩ := hf p hp
  refine ⟨rest, d, a1, ?_⟩
  obtain ⟨n, rfl⟩ := h1 p hp
  cases rest with
  | nil => exact absurd rfl a1
  | cons x rest =>
    rw [sdist_mem pi pp ps t s hps hs _ d (by simp)]
    exact ⟨_, hp, x :: rest, rfl, a1, a2, a3⟩

/-- C74 fails: with a package in another directory (`src/demo`) the source distribution cannot be built any more, unless
a package happens to have the name of that directory. -/
theorem sdist_nested_violated (hash : C → S) (di : Text) (info : Info C) (ps : List Rel) (t s : Tree C) (pi pp : C)
    (hs : buildSdist pi pp ps t = .ok s) (a b : Text) (more : Rel) (hp : a :: b :: more ∈ ps)
    (ha : ∀ p ∈ ps, ¬ Named p a) (hne : [] ∉ ps) : ∀ w, buildWheel hash di info ps s none ≠ .ok w := by
  intro w h
  have hps : ps ≠ [] := by rintro rfl; cases hp
  obtain ⟨rest, c, hr, hm⟩ := ((configured_built_iff hash di info ps s hps).1 ⟨w, h⟩).1 _ hp
  rw [sdist_mem pi pp ps t s hps hs _ c (by simp)] at hm
  obtain ⟨p, hp', rest', e, _⟩ := hm
  simp only [List.cons_append, List.cons.injEq] at e
  have hn := named_last (p := p) (fun e => hne (e ▸ hp'))
  rw [← e.1] at hn
  exact ha p hp' hn

/-- `packages = ["src/demo"]`: the source distribution is made, and cannot be built -/
def nested : Tree Nat := [([t!"pyproject.toml"], 0), ([src, t!"demo", t!"__init__.py"], 1)]

example : ∃ s, buildSdist 5 0 [[src, t!"demo"]] nested = .ok s ∧ s.map Prod.fst =
      [[t!"PKG-INFO"], [t!"pyproject.toml"], [t!"demo", t!"__init__.py"]] ∧
    buildWheel id t!"demo-1.0.dist-info" [] [[src, t!"demo"]] s none = .error .notFound :=
  ⟨_, rfl, by decide +kernel, rfl⟩

/-- The same project without the configuration: the wheel through the source distribution is the wheel. -/
example : ∃ s w w', buildSdist 5 0 [] nested = .ok s ∧
    buildWheel id t!"demo-1.0.dist-info" [(t!"METADATA", 9)] [] nested none = .ok w ∧
    buildWheel id t!"demo-1.0.dist-info" [(t!"METADATA", 9)] [] s none = .ok w' ∧
    w.files = [([t!"demo-1.0.dist-info", t!"METADATA"], 9), ([t!"demo", t!"__init__.py"], 1)] ∧ w'.files = w.files :=
  ⟨_, _, _, rfl, rfl, rfl, by decide +kernel, by decide +kernel⟩

/-- A wheel of that project passes the verification (`built_wheel_verifies`): its hypotheses are met. -/
example : Disk nested ∧ InfoNames [(t!"METADATA", 9), (t!"WHEEL", 8)] ∧ HasDir nested [src] :=
  ⟨⟨by decide +kernel, by decide +kernel⟩, ⟨by decide +kernel, by decide +kernel⟩,
    ⟨[t!"demo", t!"__init__.py"], 1, by simp, by simp [nested]⟩⟩

/-- Two packages in the project directory, one of them with compiled files. -/
def twoPackages : Tree Nat :=
  [([t!"pyproject.toml"], 0), ([t!"a", t!"__init__.py"], 1), ([t!"a", pycache, t!"x.pyc"], 2), ([t!"b", t!"c", t!"d.py"], 3),
   ([t!"tests", t!"test.py"], 4)]

example : ∃ s w w', buildSdist 5 0 [[t!"b"], [t!"a"]] twoPackages = .ok s ∧
    buildWheel id t!"d-1.dist-info" [] [[t!"b"], [t!"a"]] twoPackages none = .ok w ∧
    buildWheel id t!"d-1.dist-info" [] [[t!"b"], [t!"a"]] s none = .ok w' ∧
    w.files = [([t!"b", t!"c", t!"d.py"], 3), ([t!"a", t!"__init__.py"], 1)] ∧ w'.files = w.files :=
  ⟨_, _, _, rfl, rfl, rfl, by decide +kernel, by decide +kernel⟩

/-- Its editable links: the project directory, once. -/
example : editableLinks [[t!"b"], [t!"a"]] twoPackages = [[]] ∧ editableLinks [] nested = [[src]] := by decide +kernel

/-! ### file names -/

theorem src_name (d : Text) (hd : normalizeName d = some d) (hu : '_' ∉ d) :
    ∃ m, srcPackageName d = some m ∧ '-' ∉ m ∧ descriptorName m = some (replaceChar '.' '-' d) := by
  obtain ⟨hne, hch, _, _, _⟩ := normalize_name_shape d d hd
  refine ⟨_, by rw [srcPackageName, hd]; rfl, ?_, ?_⟩
  · intro h
    obtain ⟨c, hc, e⟩ := List.mem_map.1 h
    split at e
    · simp at e
    · split at e
      · simp at e
      · rename_i h1 _; exact h1 e
  · have hall : ∀ c ∈ d.map (fun c => if c = '-' then '_' else if c = '.' then '_' else c), nameChar c = true := by
      intro c hc
      obtain ⟨x, hx, rfl⟩ := List.mem_map.1 hc
      split
      · decide
      · split
        · decide
        · rename_i h1 _
          rcases hch x hx with h | h
          · exact h
          · exact absurd h h1
    have hrep : replaceChar '_' '-' (d.map (fun c => if c = '-' then '_' else if c = '.' then '_' else c)) =
        replaceChar '.' '-' d := by
      simp only [replaceChar, List.map_map]
      apply List.map_congr_left
      intro c hc
      have hcu : c ≠ '_' := fun e => hu (e ▸ hc)
      simp only [Function.comp]
      by_cases h1 : c = '-'
      · subst h1; decide
      · by_cases h2 : c = '.'
        · subst h2; decide
        · rw [if_neg h1, if_neg h2, if_neg hcu, if_neg h2]
    have hne' : d.map (fun c => if c = '-' then '_' else if c = '.' then '_' else c) ≠ [] := by simpa using hne
    generalize hm : d.map (fun c => if c = '-' then '_' else if c = '.' then '_' else c) = m at hall hrep hne'
    have hclean : ∀ m : Text, (∀ c ∈ m, nameChar c = true) → Clean false m := by
      intro m
      induction m with
      | nil => intro _; trivial
      | cons c cs ih => intro h; exact Or.inl ⟨h c (by simp), ih (fun x hx => h x (by simp [hx]))⟩
    have hnorm : normalizeName m = some m := by
      have h1 : stripChar '-' m = m := by
        apply stripChar_fix
        · intro c cs e ec; subst ec; exact absurd (hall '-' (by rw [e]; simp)) (by decide)
        · intro c cs e ec; subst ec; exact absurd (hall '-' (by rw [e]; simp)) (by decide)
      simp only [normalizeName, subDash_clean _ _ (hclean m hall), h1]
      rw [if_neg (by simpa using hne')]
    rw [descriptorName, if_neg (by simpa using hne'), hnorm, Option.map_some, hrep]

theorem stem_shape (current : Nat) (req : VSpec) (d version stem : Text) (h : wheelStem current req d version = .ok stem) :
    ∃ release m, minInterpreter current req = .ok release ∧ srcPackageName d = some m ∧
      stem = m ++ '-' :: (version ++ '-' :: (pyTag release ++ t!"-none-any")) := by
  simp only [wheelStem] at h
  split at h
  · cases h
  · rename_i release hr
    split at h
    · cases h
    · rename_i m hm
      cases h
      exact ⟨release, m, hr, hm, rfl⟩

theorem wheel_name_read_built (env : UrlEnv) (current : Nat) (req : VSpec) (d stem : Text) (v : SV)
    (hd : normalizeName d = some d) (hu : '_' ∉ d) (hv : Printable v)
    (h : wheelStem current req d v.show = .ok stem) :
    DistFiles.fromDistName env (stem ++ t!".whl") = .ok ⟨replaceChar '.' '-' d, .std v⟩ := by
  obtain ⟨release, m, _, hm, rfl⟩ := stem_shape current req d v.show stem h
  obtain ⟨m', hm', hdash, hdesc⟩ := src_name d hd hu
  rw [hm] at hm'
  cases hm'
  have := DistFiles.wheel_name_read env m v.show (pyTag release ++ t!"-none-any" ++ t!".whl") _ hdash
    (DistFiles.show_no_dash v hv) hdesc
  rw [version_text_round_trip env v hv] at this
  rw [← this]
  simp [List.append_assoc]

/-- C74: the package and version that pkm reads off the name of a wheel it built are those of the project.
Missing: names with dots, see `dotted_name_violated`. -/
theorem wheel_name_back_partial (env : UrlEnv) (current : Nat) (req : VSpec) (d stem : Text) (v : SV)
    (hd : normalizeName d = some d) (hu : '_' ∉ d) (hdot : '.' ∉ d) (hv : Printable v)
    (h : wheelStem current req d v.show = .ok stem) :
    DistFiles.fromDistName env (stem ++ t!".whl") = .ok ⟨d, .std v⟩ := by
  rw [wheel_name_read_built env current req d stem v hd hu hv h]
  have : replaceChar '.' '-' d = d := by
    conv => rhs; rw [← List.map_id d]
    apply List.map_congr_left
    intro c hc
    have : c ≠ '.' := fun e => hdot (e ▸ hc)
    simp [this]
  rw [this]

example (env : UrlEnv) : ∃ stem, wheelStem 3 (.range (some { release := [3, 8] }) none true false) t!"My-Pkg"
      (SV.show { release := [1, 0] }) = .ok stem ∧ stem = t!"My_Pkg-1.0-py38-none-any" ∧
    normalizeName t!"My-Pkg" = some t!"My-Pkg" ∧
    DistFiles.fromDistName env (stem ++ t!".whl") = .ok ⟨t!"My-Pkg", .std { release := [1, 0] }⟩ :=
  ⟨_, rfl, by decide +kernel, by decide +kernel, rfl⟩

/-- C74 fails: the wheel of a project with a dot in its name reads as a wheel of another package. -/
theorem dotted_name_violated (env : UrlEnv) (current : Nat) (req : VSpec) (d stem : Text) (v : SV)
    (hd : normalizeName d = some d) (hu : '_' ∉ d) (hdot : '.' ∈ d) (hv : Printable v)
    (h : wheelStem current req d v.show = .ok stem) :
    DistFiles.fromDistName env (stem ++ t!".whl") ≠ .ok ⟨d, .std v⟩ := by
  rw [wheel_name_read_built env current req d stem v hd hu hv h]
  intro e
  simp only [Except.ok.injEq, DistFiles.Desc.mk.injEq, and_true] at e
  rw [← e] at hdot
  obtain ⟨c, hc, hx⟩ := List.mem_map.1 hdot
  split at hx
  · simp at hx
  · rename_i hn; exact hn hx

/-- `zope.interface` -/
example (env : UrlEnv) : ∃ stem, wheelStem 3 .all t!"zope.interface" (SV.show { release := [1] }) = .ok stem ∧
    DistFiles.fromDistName env (stem ++ t!".whl") = .ok ⟨t!"zope-interface", .std { release := [1] }⟩ ∧
    normalizeName t!"zope.interface" = some t!"zope.interface" := ⟨_, rfl, rfl, by decide +kernel⟩

/-- C74: the name of a source distribution likewise, for versions without a local label (with one:
`DistFiles.sdist_label_violated`); here dots in the name do no harm. -/
theorem sdist_name_back_partial (env : UrlEnv) (n d : Text) (v : SV) (hv : Printable v) (hl : v.loc = none)
    (hd : descriptorName (replaceChar '-' '_' n) = some d) :
    DistFiles.fromDistName env (sdistName n v.show) = .ok ⟨d, .std v⟩ := by
  have hn : '-' ∉ replaceChar '-' '_' n := by
    intro h
    obtain ⟨c, _, e⟩ := List.mem_map.1 h
    split at e
    · simp at e
    · rename_i h1; exact h1 e
  have := DistFiles.sdist_name_read_partial env (replaceChar '-' '_' n) d v hn hv hl hd
  rw [← this]
  simp [sdistName, filePrefix, List.append_assoc]

example (env : UrlEnv) : DistFiles.fromDistName env (sdistName t!"my-pkg.x" (SV.show { release := [1, 2] })) =
    .ok ⟨t!"my-pkg.x", .std { release := [1, 2] }⟩ := rfl

/-! ### the interpreters that accept a wheel -/

open Tags in
theorem built_score (s : Sys) (hr : Regular s) (front : List Text) (hf : ∀ t ∈ front, '-' ∉ t) (ver : PyVer)
    (hv : ver.Ok) : (∃ x, compatibilityScore s
      (tagsOf (joinDash (front ++ [t!"py" ++ ver.text, t!"none", t!"any"]))) = some x) ↔ ver.Fits s.version := by
  have hok : (single ⟨t!"py", ver⟩ t!"none" .any).Ok :=
    ⟨⟨by simp [single], by
      intro i hi
      simp only [single, List.mem_singleton] at hi
      subst hi
      exact ⟨(⟨by decide, by decide⟩ : Letters t!"py"), hv⟩⟩, ⟨by simp [single], by
      intro a ha
      simp only [single, List.mem_singleton] at ha
      subst ha
      exact ⟨by decide, by decide⟩⟩, ⟨by simp [single], by
      intro p hp
      simp only [single, List.mem_singleton] at hp
      subst hp
      trivial⟩⟩
  have h1 := tags_of_wheel_name front hf _ hok
  have h2 := scored_iff_supported_partial s hr _ hok
  simp only [single, List.map_cons, List.map_nil, joinDots, Interp.text, Plat.text] at h1
  rw [h1]
  rw [show (⟨[⟨t!"py", ver⟩], [t!"none"], [.any]⟩ : TagSet) = single ⟨t!"py", ver⟩ t!"none" .any from rfl, h2]
  simp only [single, List.mem_singleton, exists_eq_left]
  constructor
  · rintro ⟨⟨_, h⟩, _⟩; exact h
  · intro h; exact ⟨⟨Or.inl rfl, h⟩, ⟨0, rfl⟩, trivial⟩

theorem stem_joined (current : Nat) (req : VSpec) (d stem : Text) (v : SV) (hd : normalizeName d = some d)
    (hu : '_' ∉ d) (hv : Printable v) (h : wheelStem current req d v.show = .ok stem) :
    ∃ release front, minInterpreter current req = .ok release ∧ (∀ t ∈ front, '-' ∉ t) ∧
      stem = Tags.joinDash (front ++ [pyTag release, t!"none", t!"any"]) := by
  obtain ⟨release, m, hr, hm, rfl⟩ := stem_shape current req d v.show stem h
  obtain ⟨m', hm', hdash, _⟩ := src_name d hd hu
  rw [hm] at hm'
  cases hm'
  refine ⟨release, [m, v.show], hr, ?_, ?_⟩
  · intro t ht
    simp only [List.mem_cons, List.not_mem_nil, or_false] at ht
    rcases ht with rfl | rfl
    · exact hdash
    · exact DistFiles.show_no_dash v hv
  · simp [Tags.joinDash]

/-- C74: the wheel of a project that requires Python `a.b` or newer is accepted exactly by the interpreters `a.c` with
`b ≤ c`. Missing: a later major version is refused as well, see `next_major_violated`. -/
theorem accepted_by_partial (s : Tags.Sys) (hr : Tags.Regular s) (current : Nat) (d stem : Text) (v min : SV)
    (max : Option SV) (i1 i2 : Bool) (a b : Nat) (more : List Nat) (hd : normalizeName d = some d) (hu : '_' ∉ d)
    (hv : Printable v) (ha : a < 10) (hmin : min.release = a :: b :: more)
    (h : wheelStem current (.range (some min) max i1 i2) d v.show = .ok stem) :
    (∃ x, Tags.compatibilityScore s (Tags.tagsOf stem) = some x) ↔ s.version.1 = a ∧ b ≤ s.version.2 := by
  obtain ⟨release, front, hrel, hf, rfl⟩ := stem_joined current _ d stem v hd hu hv h
  simp only [minInterpreter, Except.ok.injEq] at hrel
  subst hrel
  have hp : pyTag min.release = t!"py" ++ (Tags.PyVer.glued a b).text := by
    simp [pyTag, hmin, Tags.PyVer.text]
  rw [hp, built_score s hr front hf (.glued a b) ha]
  simp only [Tags.PyVer.Fits]
  constructor
  · rintro ⟨h1, h2⟩; exact ⟨h1.symm, h2⟩
  · rintro ⟨h1, h2⟩; exact ⟨h1.symm, h2⟩

/-- C74: the wheel of a project that names no range is accepted exactly by the interpreters with the major version of
the one that ran pkm. -/
theorem accepted_by_default_partial (s : Tags.Sys) (hr : Tags.Regular s) (current : Nat) (req : VSpec) (d stem : Text)
    (v : SV) (hreq : ∀ a b c e, req ≠ .range a b c e) (hd : normalizeName d = some d) (hu : '_' ∉ d)
    (hv : Printable v) (hc : current < 10) (h : wheelStem current req d v.show = .ok stem) :
    (∃ x, Tags.compatibilityScore s (Tags.tagsOf stem) = some x) ↔ s.version.1 = current := by
  obtain ⟨release, front, hrel, hf, rfl⟩ := stem_joined current _ d stem v hd hu hv h
  have : release = [current] := by
    unfold minInterpreter at hrel
    split at hrel
    · exact absurd rfl (hreq _ _ _ _)
    · exact absurd rfl (hreq _ _ _ _)
    · cases hrel; rfl
  subst this
  have hp : pyTag [current] = t!"py" ++ (Tags.PyVer.major current).text := by
    simp [pyTag, Tags.PyVer.text]
  rw [hp, built_score s hr front hf (.major current) hc]
  simp only [Tags.PyVer.Fits]
  exact eq_comm

/-- C74 fails: a project that requires Python 2.7 or newer, without an upper bound, builds a wheel that no Python 3
accepts. -/
theorem next_major_violated (s : Tags.Sys) (hr : Tags.Regular s) (h3 : s.version.1 = 3) (current : Nat) (d stem : Text)
    (v : SV) (hd : normalizeName d = some d) (hu : '_' ∉ d) (hv : Printable v)
    (h : wheelStem current (.range (some { release := [2, 7] }) none true false) d v.show = .ok stem) :
    ¬ ∃ x, Tags.compatibilityScore s (Tags.tagsOf stem) = some x := by
  rw [accepted_by_partial s hr current d stem v _ none true false 2 7 [] hd hu hv (by decide) rfl h]
  omega

example (env : UrlEnv) : parseSpecifier env t!">=2.7" = .ok (.range (some { release := [2, 7] }) none true false) ∧
    parseSpecifier env t!"<4" = .ok (.range none (some { release := [4] }) false false) := ⟨rfl, rfl⟩

example : ∃ stem, wheelStem 3 (.range (some { release := [2, 7] }) none true false) t!"demo" (SV.show { release := [1] }) =
    .ok stem ∧ Tags.tagsOf stem = t!"py27-none-any" := ⟨_, rfl, by decide +kernel⟩

/-- C74 fails: a wheel of a project with only an upper bound for Python cannot be built. -/
theorem upper_bound_violated (current : Nat) (max : Option SV) (i1 i2 : Bool) (d version : Text) :
    ∀ stem, wheelStem current (.range none max i1 i2) d version ≠ .ok stem := by
  intro stem h
  obtain ⟨release, m, hr, _⟩ := stem_shape current _ d version stem h
  simp [minInterpreter] at hr

end Dists
end Pkm
