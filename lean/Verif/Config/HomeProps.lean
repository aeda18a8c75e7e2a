import Verif.Config.Home
import Verif.Files.Lemmas
/-
The home directory of pkm (C114).
-/
set_option linter.unusedVariables false
set_option linter.unusedSimpArgs false
namespace Pkm

/-! ### specification -/
namespace Spec
open Files (Path Node FS)

/-- The directory of the components below another one. -/
def belowDir (d : Path) (cs : List Text) : Path := cs.reverse ++ d

/-- The caches in a home directory. -/
def homeCaches (h : Path) : List Path :=
  [belowDir h [t!"repos"], belowDir h [t!"build-cache"], belowDir h [t!"resources", t!"http"]]

/-- The settings in a home directory. -/
def generalSettings (h : Path) : Path := belowDir h [t!"etc", t!"pkm", t!"general.toml"]
def repositorySettings (h : Path) : Path := belowDir h [t!"etc", t!"pkm", t!"repositories.toml"]

/-- The path is in a cache (or is the directory of one). -/
def InHomeCache (h k : Path) : Prop := ∃ d ∈ homeCaches h, d <:+ k

/-- The directories that pkm makes: those of the caches and of the settings, and those above them. -/
def MadeDir (h k : Path) : Prop :=
  k <:+ belowDir h [t!"build-cache"] ∨ k <:+ belowDir h [t!"resources", t!"http"] ∨ k <:+ belowDir h [t!"etc", t!"pkm"]

/-- What is at the path is as before, or there was nothing and there is such a directory or shipped settings now. -/
def KeptAt {C : Type} (h : Path) (general repositories : C) (before after : FS C) (k : Path) : Prop :=
  Dict.get after k = Dict.get before k ∨
    (Dict.get before k = none ∧ ((MadeDir h k ∧ Dict.get after k = some .dir) ∨
      (k = generalSettings h ∧ Dict.get after k = some (.file general)) ∨
      (k = repositorySettings h ∧ Dict.get after k = some (.file repositories))))

/-- A name that stays in a path. -/
def StayingName (c : Text) : Prop := c ≠ [] ∧ c ≠ ['.'] ∧ c ≠ ['.', '.'] ∧ '/' ∉ c

end Spec

namespace Home
open Spec
open Files (Path Node FS)
variable {C : Type}

/-! ### lemmas -/

theorem keptAt_refl (h : Path) (g r : C) (fs : FS C) (k : Path) : KeptAt h g r fs fs k := Or.inl rfl

theorem keptAt_trans {h : Path} {g r : C} {a b c : FS C} {k : Path} (h1 : KeptAt h g r a b k) (h2 : KeptAt h g r b c k) :
    KeptAt h g r a c k := by
  rcases h1 with h1 | ⟨h1, h1'⟩
  · unfold KeptAt at *; rw [← h1]; exact h2
  · rcases h2 with h2 | ⟨h2, -⟩
    · refine Or.inr ⟨h1, ?_⟩; rw [h2]; exact h1'
    · rw [h2] at h1'; simp at h1'

theorem mkdirs_spec {fs f : FS C} {p : Path} (h : mkdirs fs p = some f) :
    Dict.get f p = some .dir ∧ (∀ k, Dict.get f k = Dict.get fs k ∨
      (Dict.get fs k = none ∧ Dict.get f k = some .dir ∧ k <:+ p)) ∧
    (FS.Tree fs → FS.Tree f) := by
  induction p generalizing f with
  | nil =>
    unfold mkdirs at h
    split at h
    · rename_i hd; cases h; exact ⟨(FS.isDir_iff _ _).1 hd, fun k => Or.inl rfl, id⟩
    · cases h
  | cons c p ih =>
    unfold mkdirs at h
    split at h
    · cases h
    · rename_i f1 h1
      obtain ⟨i1, i2, i3⟩ := ih h1
      split at h
      · rename_i hd; cases h
        exact ⟨hd, fun k => (i2 k).imp id (fun x => ⟨x.1, x.2.1, x.2.2.trans (List.suffix_cons c p)⟩), i3⟩
      · cases h
      · rename_i hn
        cases h
        refine ⟨by rw [Dict.get_put, if_pos rfl], ?_, ?_⟩
        · intro k
          rw [Dict.get_put]
          split
          · rename_i e; subst e
            rcases i2 (c :: p) with x | ⟨x, y⟩
            · exact Or.inr ⟨by rw [← x, hn], rfl, List.suffix_rfl⟩
            · rw [y.1] at hn; cases hn
          · exact (i2 k).imp id (fun x => ⟨x.1, x.2.1, x.2.2.trans (List.suffix_cons c p)⟩)
        · intro ht x q n hx
          rw [Dict.get_put] at hx ⊢
          split at hx
          · rename_i e; cases e
            rw [if_neg (by intro e; have := congrArg List.length e; simp at this)]
            exact i1
          · split
            · rfl
            · exact i3 ht x q n hx

/-- All that one use changes. -/
structure Keeps (sh : Shipped C) (h : Path) (s t : St C) : Prop where
  raw : t.1.raw = s.1.raw
  kept : ∀ k, KeptAt h sh.general sh.repositories s.2 t.2 k
  tree : FS.Tree s.2 → FS.Tree t.2

theorem Keeps.refl (sh : Shipped C) (h : Path) (s : St C) : Keeps sh h s s := ⟨rfl, fun k => keptAt_refl _ _ _ _ _, id⟩

theorem Keeps.trans {sh : Shipped C} {h : Path} {s t u : St C} (a : Keeps sh h s t) (b : Keeps sh h t u) : Keeps sh h s u :=
  ⟨b.raw.trans a.raw, fun k => keptAt_trans (a.kept k) (b.kept k), fun x => b.tree (a.tree x)⟩

theorem _root_.Pkm.Spec.MadeDir.up {h k p : Path} (hp : MadeDir h p) (hk : k <:+ p) : MadeDir h k :=
  hp.imp hk.trans (Or.imp hk.trans hk.trans)

theorem made_home (h : Path) : MadeDir h h := Or.inl (List.suffix_cons _ _)
theorem made_build (h : Path) : MadeDir h (buildDir h) := Or.inl List.suffix_rfl
theorem made_http (h : Path) : MadeDir h (httpDir h) := Or.inr (Or.inl List.suffix_rfl)
theorem made_etc (h : Path) : MadeDir h (t!"pkm" :: t!"etc" :: h) := Or.inr (Or.inr List.suffix_rfl)

theorem keeps_mkdirs {sh : Shipped C} {h : Path} {s : St C} {f : FS C} {p : Path} {o : Self C} (hm : mkdirs s.2 p = some f)
    (hp : MadeDir h p) (ho : o.raw = s.1.raw) : Keeps sh h s (o, f) := by
  obtain ⟨h1, h2, h3⟩ := mkdirs_spec hm
  refine ⟨ho, fun k => ?_, h3⟩
  rcases h2 k with x | ⟨x, y, z⟩
  · exact Or.inl x
  · exact Or.inr ⟨x, Or.inl ⟨hp.up z, y⟩⟩

theorem keeps_home (sh : Shipped C) {h : Path} {s : St C} (hr : s.1.raw = .path h) : Keeps sh h s (useHome s).2 := by
  unfold useHome
  rw [hr]
  dsimp only
  split
  · exact Keeps.refl _ _ _
  · split
    · exact Keeps.refl _ _ _
    · rename_i f hm; exact keeps_mkdirs hm (made_home h) rfl

theorem home_ok {h p : Path} {s : St C} (hr : s.1.raw = .path h) (hp : (useHome s).1 = .ok p) : p = h := by
  unfold useHome at hp
  rw [hr] at hp
  dsimp only at hp
  split at hp
  · cases hp; rfl
  · split at hp
    · cases hp
    · cases hp; rfl

theorem keeps_settings (sh : Shipped C) {h : Path} (o : Self C) (fs : FS C) (k : Path) (c : C)
    (hk : (k = generalFile h ∧ c = sh.general) ∨ (k = repositoriesFile h ∧ c = sh.repositories)) {o' : Self C}
    (ho : o'.raw = o.raw) : Keeps sh h (o, fs) (o', (settings fs k c).2) := by
  unfold settings
  split
  · exact ⟨ho, fun k => Or.inl rfl, id⟩
  · exact ⟨ho, fun k => Or.inl rfl, id⟩
  · rename_i hn
    split
    · exact ⟨ho, fun k => Or.inl rfl, id⟩
    · rename_i f hm
      obtain ⟨h1, h2, h3⟩ := mkdirs_spec hm
      refine ⟨ho, fun j => ?_, fun ht => ?_⟩
      · dsimp only
        by_cases e : k = j
        · subst e
          refine Or.inr ⟨hn, Or.inr ?_⟩
          rw [Dict.get_put, if_pos rfl]
          rcases hk with ⟨a, b⟩ | ⟨a, b⟩
          · exact Or.inl ⟨a, by rw [b]⟩
          · exact Or.inr ⟨a, by rw [b]⟩
        · unfold KeptAt
          rw [Dict.get_put, if_neg e]
          rcases h2 j with x | ⟨x, y, z⟩
          · exact Or.inl x
          · refine Or.inr ⟨x, Or.inl ⟨(made_etc h).up ?_, y⟩⟩
            rcases hk with ⟨a, -⟩ | ⟨a, -⟩ <;> rw [a] at z <;> exact z
      · have hne : k ≠ [] := by rcases hk with ⟨a, -⟩ | ⟨a, -⟩ <;> rw [a] <;> simp [generalFile, repositoriesFile]
        intro x q n hx
        dsimp only at hx ⊢
        rw [Dict.get_put] at hx ⊢
        split at hx
        · rename_i e; subst e
          rw [if_neg (by intro e; have := congrArg List.length e; simp at this)]
          exact h1
        · split
          · rename_i e
            exfalso
            subst e
            rcases h2 (x :: k) with y | ⟨y, z, w⟩
            · rw [y] at hx
              rw [ht x k n hx] at hn; cases hn
            · have := w.length_le
              cases k with
              | nil => exact hne rfl
              | cons a b => simp [Files.parent] at this; omega
          · exact h3 ht x q n hx

theorem keeps_config (sh : Shipped C) {h : Path} {s : St C} (hr : s.1.raw = .path h) : Keeps sh h s (useConfig sh s).2 := by
  unfold useConfig
  split
  · exact Keeps.refl _ _ _
  · have hk := keeps_home sh hr
    split
    · rename_i e s' he; rw [he] at hk; exact hk
    · rename_i p s' he
      have hp := home_ok hr (p := p) (by rw [he])
      rw [he] at hk
      subst hp
      have hs := fun o' ho => keeps_settings sh (h := p) s'.1 s'.2 (generalFile p) sh.general (Or.inl ⟨rfl, rfl⟩) (o' := o') ho
      split
      · rename_i e f hf; rw [hf] at hs; exact hk.trans (hs _ rfl)
      · rename_i c f hf
        rw [hf] at hs
        split
        · exact hk.trans (hs _ rfl)
        · exact hk.trans (hs _ rfl)

theorem keeps_loader (sh : Shipped C) {h : Path} {s : St C} (hr : s.1.raw = .path h) : Keeps sh h s (useLoader sh s).2 := by
  unfold useLoader
  have hk := keeps_home sh hr
  split
  · rename_i e s' he; rw [he] at hk; exact hk
  · rename_i p s' he
    have hp := home_ok hr (p := p) (by rw [he])
    rw [he] at hk
    subst hp
    split
    · exact hk
    · have hs := fun o' ho => keeps_settings sh (h := p) s'.1 s'.2 (repositoriesFile p) sh.repositories
        (Or.inr ⟨rfl, rfl⟩) (o' := o') ho
      split
      · rename_i e f hf; rw [hf] at hs; exact hk.trans (hs _ rfl)
      · rename_i c f hf
        rw [hf] at hs
        split
        · exact hk.trans (hs _ rfl)
        · exact hk.trans (hs _ rfl)

theorem keeps_http (sh : Shipped C) {h : Path} {s : St C} (hr : s.1.raw = .path h) : Keeps sh h s (useHttp s).2 := by
  unfold useHttp
  have hk := keeps_home sh hr
  split
  · rename_i e s' he; rw [he] at hk; exact hk
  · rename_i p s' he
    have hp := home_ok hr (p := p) (by rw [he])
    rw [he] at hk
    subst hp
    split
    · exact hk
    · split
      · exact hk
      · rename_i f hm; exact hk.trans (keeps_mkdirs hm (made_http p) rfl)

theorem keeps_build (sh : Shipped C) {h : Path} {s : St C} (hr : s.1.raw = .path h) : Keeps sh h s (useBuild s).2 := by
  unfold useBuild
  have hk := keeps_home sh hr
  split
  · rename_i e s' he; rw [he] at hk; exact hk
  · rename_i p s' he
    have hp := home_ok hr (p := p) (by rw [he])
    rw [he] at hk
    subst hp
    split
    · exact hk
    · split
      · exact hk
      · rename_i f hm; exact hk.trans (keeps_mkdirs hm (made_build p) rfl)

theorem http_ok {h p : Path} {s : St C} (hr : s.1.raw = .path h) (hp : (useHttp s).1 = .ok p) : p = httpDir h := by
  unfold useHttp at hp
  split at hp
  · cases hp
  · rename_i q s' he
    have := home_ok hr (p := q) (by rw [he])
    subst this
    split at hp
    · cases hp; rfl
    · split at hp
      · cases hp
      · cases hp; rfl

theorem build_ok {h p : Path} {s : St C} (hr : s.1.raw = .path h) (hp : (useBuild s).1 = .ok p) : p = buildDir h := by
  unfold useBuild at hp
  split at hp
  · cases hp
  · rename_i q s' he
    have := home_ok hr (p := q) (by rw [he])
    subst this
    split at hp
    · cases hp; rfl
    · split at hp
      · cases hp
      · cases hp; rfl

theorem loader_ok {sh : Shipped C} {h p : Path} {c : C} {s : St C} (hr : s.1.raw = .path h)
    (hp : (useLoader sh s).1 = .ok (c, p)) : p = reposDir h := by
  unfold useLoader at hp
  split at hp
  · cases hp
  · rename_i q s' he
    have := home_ok hr (p := q) (by rw [he])
    subst this
    split at hp
    · cases hp; rfl
    · split at hp
      · cases hp
      · split at hp
        · cases hp; rfl
        · cases hp

/-- The same outside of the caches. -/
structure Outside (sh : Shipped C) (h : Path) (s t : St C) : Prop where
  raw : t.1.raw = s.1.raw
  kept : ∀ k, ¬ InHomeCache h k → KeptAt h sh.general sh.repositories s.2 t.2 k
  tree : FS.Tree s.2 → FS.Tree t.2

theorem Keeps.out {sh : Shipped C} {h : Path} {s t : St C} (a : Keeps sh h s t) : Outside sh h s t :=
  ⟨a.raw, fun k _ => a.kept k, a.tree⟩

theorem Outside.trans {sh : Shipped C} {h : Path} {s t u : St C} (a : Outside sh h s t) (b : Outside sh h t u) :
    Outside sh h s u :=
  ⟨b.raw.trans a.raw, fun k hk => keptAt_trans (a.kept k hk) (b.kept k hk), fun x => b.tree (a.tree x)⟩

theorem outside_rmtree {sh : Shipped C} {h d : Path} (s : St C) (hd : d ∈ homeCaches h) {o : Self C} (ho : o.raw = s.1.raw) :
    Outside sh h s (o, s.2.rmtreeQuiet d) := by
  refine ⟨ho, fun k hk => Or.inl ?_, fun ht => Files.rmtreeQuiet_tree _ _ ht⟩
  unfold FS.rmtreeQuiet
  split
  · rw [FS.dropTree_get, if_neg]; intro x; exact hk ⟨d, hd, x⟩
  · rfl

theorem mem_repos (h : Path) : reposDir h ∈ homeCaches h := List.mem_cons_self
theorem mem_build (h : Path) : buildDir h ∈ homeCaches h := List.mem_cons_of_mem _ List.mem_cons_self
theorem mem_http (h : Path) : httpDir h ∈ homeCaches h := List.mem_cons_of_mem _ (List.mem_cons_of_mem _ List.mem_cons_self)

theorem outside_clean (sh : Shipped C) {h : Path} {s : St C} (hr : s.1.raw = .path h) : Outside sh h s (clean sh s).2 := by
  unfold clean
  have hk := keeps_loader sh hr
  split
  · rename_i e s' he; rw [he] at hk; exact hk.out
  · rename_i c d s' he
    rw [he] at hk
    have hd := loader_ok (sh := sh) (p := d) (c := c) hr (by rw [he])
    subst hd
    have o1 := hk.out.trans (outside_rmtree (sh := sh) s' (mem_repos h) (o := s'.1) rfl)
    have r1 : s'.1.raw = .path h := hk.raw.trans hr
    have b1 := keeps_build sh (s := (s'.1, s'.2.rmtreeQuiet (reposDir h))) r1
    split
    · rename_i e t he'; rw [he'] at b1; exact o1.trans b1.out
    · rename_i d t he'
      rw [he'] at b1
      have hd := build_ok (p := d) (s := (s'.1, s'.2.rmtreeQuiet (reposDir h))) r1 (by rw [he'])
      subst hd
      have r2 : t.1.raw = .path h := b1.raw.trans r1
      have o2 := (o1.trans b1.out).trans (outside_rmtree (sh := sh) t (mem_build h) (o := t.1) rfl)
      have b2 := keeps_http sh (s := (t.1, t.2.rmtreeQuiet (buildDir h))) r2
      split
      · rename_i e u he''; rw [he''] at b2; exact o2.trans b2.out
      · rename_i d u he''
        rw [he''] at b2
        have hd := http_ok (p := d) (s := (t.1, t.2.rmtreeQuiet (buildDir h))) r2 (by rw [he''])
        subst hd
        exact (o2.trans b2.out).trans (outside_rmtree (sh := sh) u (mem_http h) rfl)

theorem keeps_use (sh : Shipped C) {h : Path} {s : St C} (u : Use) (hu : u ≠ .clean) (hr : s.1.raw = .path h) :
    Keeps sh h s (use sh u s).2 := by
  cases u with
  | home => exact keeps_home sh hr
  | config => exact keeps_config sh hr
  | http => exact keeps_http sh hr
  | build => exact keeps_build sh hr
  | loader => exact keeps_loader sh hr
  | clean => exact absurd rfl hu

theorem outside_use (sh : Shipped C) {h : Path} {s : St C} (u : Use) (hr : s.1.raw = .path h) :
    Outside sh h s (use sh u s).2 := by
  by_cases hu : u = .clean
  · subst hu; exact outside_clean sh hr
  · exact (keeps_use sh u hu hr).out

/-- A cached workspace is there. -/
def Sound (h : Path) (s : St C) : Prop :=
  (s.1.http = true → Dict.get s.2 (httpDir h) = some .dir) ∧ (s.1.build = true → Dict.get s.2 (buildDir h) = some .dir)

theorem KeptAt.some {h : Path} {g r : C} {a b : FS C} {k : Path} {n : Node C} (hk : KeptAt h g r a b k)
    (hn : Dict.get a k = some n) : Dict.get b k = some n := by
  rcases hk with x | ⟨x, -⟩
  · rw [x, hn]
  · rw [x] at hn; cases hn

theorem sound_of {sh : Shipped C} {h : Path} {s t : St C} (hk : Keeps sh h s t) (hs : Sound h s) (h1 : t.1.http = s.1.http)
    (h2 : t.1.build = s.1.build) : Sound h t :=
  ⟨fun x => KeptAt.some (hk.kept _) (hs.1 (h1 ▸ x)), fun x => KeptAt.some (hk.kept _) (hs.2 (h2 ▸ x))⟩

theorem flags_home (s : St C) : (useHome s).2.1.http = s.1.http ∧ (useHome s).2.1.build = s.1.build := by
  unfold useHome
  split
  · exact ⟨rfl, rfl⟩
  · split
    · exact ⟨rfl, rfl⟩
    · split <;> exact ⟨rfl, rfl⟩

theorem flags_config (sh : Shipped C) (s : St C) :
    (useConfig sh s).2.1.http = s.1.http ∧ (useConfig sh s).2.1.build = s.1.build := by
  unfold useConfig
  have hf := flags_home s
  split
  · exact ⟨rfl, rfl⟩
  · split
    · rename_i he; rw [he] at hf; exact hf
    · rename_i he
      rw [he] at hf
      split
      · exact hf
      · split <;> exact hf

theorem flags_loader (sh : Shipped C) (s : St C) :
    (useLoader sh s).2.1.http = s.1.http ∧ (useLoader sh s).2.1.build = s.1.build := by
  unfold useLoader
  have hf := flags_home s
  split
  · rename_i he; rw [he] at hf; exact hf
  · rename_i he
    rw [he] at hf
    split
    · exact hf
    · split
      · exact hf
      · split <;> exact hf

theorem sound_home (sh : Shipped C) {h : Path} {s : St C} (hr : s.1.raw = .path h) (hs : Sound h s) : Sound h (useHome s).2 :=
  sound_of (keeps_home sh hr) hs (flags_home s).1 (flags_home s).2

theorem sound_http (sh : Shipped C) {h : Path} {s : St C} (hr : s.1.raw = .path h) (hs : Sound h s) :
    Sound h (useHttp s).2 ∧ ∀ p, (useHttp s).1 = .ok p → Dict.get (useHttp s).2.2 p = some .dir := by
  have h1 := sound_home sh hr hs
  unfold useHttp
  split
  · rename_i e s' he; rw [he] at h1; exact ⟨h1, fun p hp => by cases hp⟩
  · rename_i q s' he
    have hq := home_ok hr (p := q) (by rw [he])
    subst hq
    rw [he] at h1
    split
    · rename_i hh; exact ⟨h1, fun p hp => by cases hp; exact h1.1 hh⟩
    · split
      · exact ⟨h1, fun p hp => by cases hp⟩
      · rename_i f hm
        have hd := (mkdirs_spec hm).1
        refine ⟨⟨fun _ => hd, fun x => ?_⟩, fun p hp => by cases hp; exact hd⟩
        exact KeptAt.some ((keeps_mkdirs (sh := sh) (h := q) (o := s'.1) hm (made_http q) rfl).kept _) (h1.2 x)

theorem sound_build (sh : Shipped C) {h : Path} {s : St C} (hr : s.1.raw = .path h) (hs : Sound h s) :
    Sound h (useBuild s).2 ∧ ∀ p, (useBuild s).1 = .ok p → Dict.get (useBuild s).2.2 p = some .dir := by
  have h1 := sound_home sh hr hs
  unfold useBuild
  split
  · rename_i e s' he; rw [he] at h1; exact ⟨h1, fun p hp => by cases hp⟩
  · rename_i q s' he
    have hq := home_ok hr (p := q) (by rw [he])
    subst hq
    rw [he] at h1
    split
    · rename_i hh; exact ⟨h1, fun p hp => by cases hp; exact h1.2 hh⟩
    · split
      · exact ⟨h1, fun p hp => by cases hp⟩
      · rename_i f hm
        have hd := (mkdirs_spec hm).1
        refine ⟨⟨fun x => ?_, fun _ => hd⟩, fun p hp => by cases hp; exact hd⟩
        exact KeptAt.some ((keeps_mkdirs (sh := sh) (h := q) (o := s'.1) hm (made_build q) rfl).kept _) (h1.1 x)

theorem clean_new {sh : Shipped C} {s : St C} (hc : (clean sh s).1 = .ok ()) : (clean sh s).2.1.http = false ∧
    (clean sh s).2.1.build = false := by
  unfold clean at hc ⊢
  split
  · rename_i he; rw [he] at hc; cases hc
  · rename_i he
    rw [he] at hc
    dsimp only at hc
    split
    · rename_i he'; rw [he'] at hc; cases hc
    · rename_i he'
      rw [he'] at hc
      dsimp only at hc
      split
      · rename_i he''; rw [he''] at hc; cases hc
      · exact ⟨rfl, rfl⟩

theorem sound_use (sh : Shipped C) {h : Path} {s : St C} (u : Use) (hr : s.1.raw = .path h) (hs : Sound h s)
    (hc : u = .clean → ∃ g, (use sh u s).1 = .ok g) : Sound h (use sh u s).2 := by
  cases u with
  | home => exact sound_home sh hr hs
  | config => exact sound_of (keeps_config sh hr) hs (flags_config sh s).1 (flags_config sh s).2
  | http => exact (sound_http sh hr hs).1
  | build => exact (sound_build sh hr hs).1
  | loader => exact sound_of (keeps_loader sh hr) hs (flags_loader sh s).1 (flags_loader sh s).2
  | clean =>
    obtain ⟨g, hg⟩ := hc rfl
    have hg' : (clean sh s).1 = .ok () := by
      simp only [use] at hg
      cases hx : (clean sh s).1 with
      | ok y => rfl
      | error e => rw [hx] at hg; cases hg
    have := clean_new hg'
    exact ⟨fun x => by simp [use, this.1] at x, fun x => by simp [use, this.2] at x⟩

/-- Every cleaning among the uses succeeds. -/
def CleansSucceed (sh : Shipped C) : List Use → St C → Prop
  | [], _ => True
  | u :: us, s => (u = .clean → ∃ g, (use sh u s).1 = .ok g) ∧ CleansSucceed sh us (use sh u s).2

theorem useAll_sound (sh : Shipped C) {h : Path} (us : List Use) : ∀ s : St C, s.1.raw = .path h → Sound h s →
    CleansSucceed sh us s → Sound h (useAll sh us s) ∧ (useAll sh us s).1.raw = .path h := by
  induction us with
  | nil => intro s hr hs _; exact ⟨hs, hr⟩
  | cons u us ih =>
    intro s hr hs hc
    exact ih _ ((outside_use sh u hr).raw.trans hr) (sound_use sh u hr hs hc.1) hc.2

theorem useAll_outside (sh : Shipped C) {h : Path} (us : List Use) : ∀ s : St C, s.1.raw = .path h →
    Outside sh h s (useAll sh us s) := by
  induction us with
  | nil => intro s hr; exact (Keeps.refl sh h s).out
  | cons u us ih =>
    intro s hr
    have h1 := outside_use sh u hr
    exact h1.trans (ih _ (h1.raw.trans hr))

theorem useAll_keeps (sh : Shipped C) {h : Path} (us : List Use) (hu : .clean ∉ us) : ∀ s : St C, s.1.raw = .path h →
    Keeps sh h s (useAll sh us s) := by
  induction us with
  | nil => intro s hr; exact Keeps.refl sh h s
  | cons u us ih =>
    intro s hr
    simp only [List.mem_cons, not_or] at hu
    have h1 := keeps_use sh u (Ne.symm hu.1) hr
    exact h1.trans (ih hu.2 _ (h1.raw.trans hr))

/-! ### C114: what is in the home directory -/

/-- C114: whatever pkm does with its home directory, with failures and cleaning among it, what is not in a cache stays as it is; new are
only directories and shipped settings where there were none. Without cleaning this is so in the caches too. -/
theorem home_kept (sh : Shipped C) (h : Path) (fs : FS C) (us : List Use) (k : Path)
    (hk : Use.clean ∈ us → ¬ InHomeCache h k) :
    KeptAt h sh.general sh.repositories fs (useAll sh us (Self.new (.path h), fs)).2 k := by
  by_cases hc : Use.clean ∈ us
  · exact (useAll_outside sh us (Self.new (.path h), fs) rfl).kept k (hk hc)
  · exact (useAll_keeps sh us hc (Self.new (.path h), fs) rfl).kept k

theorem settings_key {sh : Shipped C} {h : Path} {s t : St C} (hk : Keeps sh h s t) (file : Path) (c d : C) (f : FS C)
    (hfile : (file = generalFile h ∧ c = sh.general) ∨ (file = repositoriesFile h ∧ c = sh.repositories))
    (hd : settings t.2 file c = (.ok d, f)) :
    Dict.get s.2 file = some (.file d) ∨ (Dict.get s.2 file = none ∧ d = c) := by
  unfold settings at hd
  split at hd
  · rename_i c' hc'
    cases hd
    rcases hk.kept file with x | ⟨x, ⟨-, y⟩ | ⟨e, y⟩ | ⟨e, y⟩⟩
    · exact Or.inl (by rw [← hc']; exact x.symm)
    · rw [y] at hc'; cases hc'
    · refine Or.inr ⟨x, ?_⟩
      rw [y] at hc'; cases hc'
      rcases hfile with ⟨-, hc⟩ | ⟨hc, -⟩
      · exact hc.symm
      · rw [hc] at e; cases e
    · refine Or.inr ⟨x, ?_⟩
      rw [y] at hc'; cases hc'
      rcases hfile with ⟨hc, -⟩ | ⟨-, hc⟩
      · rw [hc] at e; cases e
      · exact hc.symm
  · cases hd
  · rename_i hn
    split at hd
    · cases hd
    · cases hd
      refine Or.inr ⟨?_, rfl⟩
      rcases hk.kept file with x | ⟨x, -⟩
      · rw [← hn]; exact x.symm
      · exact x

/-- C114: settings that are there are used as they are, and the shipped ones if there are none. -/
theorem home_settings (sh : Shipped C) (h : Path) (fs : FS C) (c : C) :
    ((use sh .config (Self.new (.path h), fs)).1 = .ok (.settings c) →
      Dict.get fs (generalSettings h) = some (.file c) ∨ (Dict.get fs (generalSettings h) = none ∧ c = sh.general)) ∧
    ((use sh .loader (Self.new (.path h), fs)).1 = .ok (.settings c) →
      Dict.get fs (repositorySettings h) = some (.file c) ∨
        (Dict.get fs (repositorySettings h) = none ∧ c = sh.repositories)) := by
  have hk := keeps_home sh (h := h) (s := (Self.new (.path h), fs)) rfl
  constructor
  · intro hu
    have hu' : (useConfig sh (Self.new (.path h), fs)).1 = .ok c := by
      simp only [use] at hu
      cases hx : (useConfig sh (Self.new (.path h), fs)).1 with
      | error e => rw [hx] at hu; cases hu
      | ok y => rw [hx] at hu; cases hu; rfl
    unfold useConfig at hu'
    rw [show (Self.new (.path h) : Self C).config = none from rfl] at hu'
    dsimp only at hu'
    split at hu'
    · cases hu'
    · rename_i q s' he
      have hq := home_ok (h := h) (p := q) (s := (Self.new (.path h), fs)) rfl (by rw [he])
      subst hq
      rw [he] at hk
      split at hu'
      · cases hu'
      · rename_i d f hd
        have := settings_key hk (generalFile q) sh.general d f (Or.inl ⟨rfl, rfl⟩) hd
        split at hu'
        · cases hu'; exact this
        · cases hu'
  · intro hu
    have hu' : ∃ p, (useLoader sh (Self.new (.path h), fs)).1 = .ok (c, p) := by
      simp only [use] at hu
      cases hx : (useLoader sh (Self.new (.path h), fs)).1 with
      | error e => rw [hx] at hu; cases hu
      | ok y => rw [hx] at hu; cases hu; exact ⟨y.2, rfl⟩
    obtain ⟨p, hu'⟩ := hu'
    have hl1 : (useHome ((Self.new (.path h), fs) : St C)).2.1.loader = none := by
      unfold useHome
      simp only [Self.new]
      cases mkdirs fs h <;> rfl
    unfold useLoader at hu'
    split at hu'
    · cases hu'
    · rename_i q s' he
      have hq := home_ok (h := h) (p := q) (s := (Self.new (.path h), fs)) rfl (by rw [he])
      subst hq
      rw [he] at hk hl1
      dsimp only at hl1
      rw [hl1] at hu'
      dsimp only at hu'
      split at hu'
      · cases hu'
      · rename_i d f hd
        have := settings_key hk (repositoriesFile q) sh.repositories d f (Or.inr ⟨rfl, rfl⟩) hd
        split at hu'
        · cases hu'; exact this
        · cases hu'

/-- C114: the workspaces of the http client and of the build cache are directories whenever they are given out, after any uses
among which every cleaning succeeded. -/
theorem home_workspaces (sh : Shipped C) (h : Path) (fs : FS C) (us : List Use)
    (hc : CleansSucceed sh us (Self.new (.path h), fs)) (u : Use) (hu : u = .http ∨ u = .build) (p : Path)
    (hp : (use sh u (useAll sh us (Self.new (.path h), fs))).1 = .ok (.dir p)) :
    Dict.get (use sh u (useAll sh us (Self.new (.path h), fs))).2.2 p = some .dir ∧ p ∈ homeCaches h := by
  obtain ⟨h1, h2⟩ := useAll_sound sh us (Self.new (.path h), fs) rfl
    ⟨fun x => by simp [Self.new] at x, fun x => by simp [Self.new] at x⟩ hc
  rcases hu with rfl | rfl
  · have hs := sound_http sh h2 h1
    simp only [use] at hp ⊢
    cases hx : (useHttp (useAll sh us (Self.new (.path h), fs))).1 with
    | error e => rw [hx] at hp; cases hp
    | ok q =>
      rw [hx] at hp; cases hp
      exact ⟨hs.2 _ hx, by rw [http_ok h2 hx]; exact mem_http h⟩
  · have hs := sound_build sh h2 h1
    simp only [use] at hp ⊢
    cases hx : (useBuild (useAll sh us (Self.new (.path h), fs))).1 with
    | error e => rw [hx] at hp; cases hp
    | ok q =>
      rw [hx] at hp; cases hp
      exact ⟨hs.2 _ hx, by rw [build_ok h2 hx]; exact mem_build h⟩

/-! ### cleaning -/

/-- Nothing is below the directory, and it is none. -/
def Emptied (f : FS C) (d : Path) : Prop :=
  Dict.get f d ≠ some .dir ∧ ∀ k, d <:+ k → k ≠ d → Dict.get f k = none

theorem tree_above {f : FS C} (ht : FS.Tree f) {k d : Path} (hd : d <:+ k) (hk : k ≠ d) {n : Node C} (hn : Dict.get f k = some n) :
    Dict.get f d = some .dir := by
  induction k generalizing n with
  | nil => rw [List.suffix_nil] at hd; exact absurd hd.symm hk
  | cons c k ih =>
    have h1 := ht c k n hn
    rcases List.suffix_cons_iff.1 hd with e | e
    · exact absurd e.symm hk
    · by_cases x : k = d
      · rw [← x]; exact h1
      · exact ih e x h1

theorem emptied_rmtree (f : FS C) (ht : FS.Tree f) (d : Path) : Emptied (f.rmtreeQuiet d) d := by
  unfold FS.rmtreeQuiet
  split
  · refine ⟨by rw [FS.dropTree_get, if_pos List.suffix_rfl]; simp, fun k hk _ => by rw [FS.dropTree_get, if_pos hk]⟩
  · rename_i hn
    have hn' : Dict.get f d ≠ some .dir := fun x => hn ((FS.isDir_iff _ _).2 x)
    refine ⟨hn', fun k hk hne => ?_⟩
    cases hx : Dict.get f k with
    | none => rfl
    | some n => exact absurd (tree_above ht hk hne hx) hn'

theorem emptied_drop {f : FS C} {d : Path} (h : Emptied f d) (e : Path) : Emptied (f.rmtreeQuiet e) d := by
  have hg : ∀ k, Dict.get (f.rmtreeQuiet e) k = Dict.get f k ∨ Dict.get (f.rmtreeQuiet e) k = none := by
    intro k
    unfold FS.rmtreeQuiet
    split
    · rw [FS.dropTree_get]; split
      · exact Or.inr rfl
      · exact Or.inl rfl
    · exact Or.inl rfl
  refine ⟨fun x => ?_, fun k h1 h2 => ?_⟩
  · rcases hg d with y | y
    · rw [y] at x; exact h.1 x
    · rw [y] at x; cases x
  · rcases hg k with y | y
    · rw [y]; exact h.2 k h1 h2
    · exact y

/-- What is emptied stays so as long as nothing is made at it. -/
theorem emptied_made {s t : FS C} {d p : Path} (hd : Emptied s d)
    (hk : ∀ k, Dict.get t k = Dict.get s k ∨ (Dict.get s k = none ∧ Dict.get t k = some .dir ∧ k <:+ p)) (hp : ¬ d <:+ p) :
    Emptied t d := by
  refine ⟨fun x => ?_, fun k h1 h2 => ?_⟩
  · rcases hk d with y | ⟨-, -, y⟩
    · rw [y] at x; exact hd.1 x
    · exact hp y
  · rcases hk k with y | ⟨-, -, y⟩
    · rw [y]; exact hd.2 k h1 h2
    · exact absurd (h1.trans y) hp

theorem emptied_home {s : St C} {h d : Path} (hr : s.1.raw = .path h) (hd : Emptied s.2 d) (hp : ¬ d <:+ h) :
    Emptied (useHome s).2.2 d := by
  unfold useHome
  rw [hr]
  dsimp only
  split
  · exact hd
  · split
    · exact hd
    · rename_i f hm; exact emptied_made hd (mkdirs_spec hm).2.1 hp

theorem emptied_build {s : St C} {h d : Path} (hr : s.1.raw = .path h) (hd : Emptied s.2 d) (hp : ¬ d <:+ buildDir h) :
    Emptied (useBuild s).2.2 d := by
  have h1 := emptied_home hr hd (fun x => hp (x.trans (List.suffix_cons _ _)))
  unfold useBuild
  split
  · rename_i he; rw [he] at h1; exact h1
  · rename_i q s' he
    have := home_ok hr (p := q) (by rw [he])
    subst this
    rw [he] at h1
    split
    · exact h1
    · split
      · exact h1
      · rename_i f hm; exact emptied_made h1 (mkdirs_spec hm).2.1 hp

theorem emptied_http {s : St C} {h d : Path} (hr : s.1.raw = .path h) (hd : Emptied s.2 d) (hp : ¬ d <:+ httpDir h) :
    Emptied (useHttp s).2.2 d := by
  have h1 := emptied_home hr hd (fun x => hp (x.trans ((List.suffix_cons _ _).trans (List.suffix_cons _ _))))
  unfold useHttp
  split
  · rename_i he; rw [he] at h1; exact h1
  · rename_i q s' he
    have := home_ok hr (p := q) (by rw [he])
    subst this
    rw [he] at h1
    split
    · exact h1
    · split
      · exact h1
      · rename_i f hm; exact emptied_made h1 (mkdirs_spec hm).2.1 hp

theorem not_suffix_build {a : Text} (h : Path) (ha : a ≠ t!"build-cache") : ¬ (a :: h) <:+ buildDir h := by
  intro x
  have := List.IsSuffix.eq_of_length x (by simp [buildDir])
  simp only [buildDir, List.cons.injEq] at this
  exact ha this.1

theorem not_suffix_http {a : Text} (h : Path) (ha : a ≠ t!"resources") : ¬ (a :: h) <:+ httpDir h := by
  intro x
  rcases List.suffix_cons_iff.1 x with e | e
  · have := congrArg List.length e; simp at this
  · have := List.IsSuffix.eq_of_length e (by simp)
    simp only [List.cons.injEq] at this
    exact ha this.1

/-- C114: after a successful cleaning there is nothing in the caches, whatever was used before. -/
theorem home_cleaned (sh : Shipped C) (h : Path) (fs : FS C) (ht : FS.Tree fs) (us : List Use)
    (hc : (use sh .clean (useAll sh us (Self.new (.path h), fs))).1 = .ok .done) (d : Path) (hd : d ∈ homeCaches h) (k : Path)
    (hk : d <:+ k) (hne : k ≠ d) :
    Dict.get (use sh .clean (useAll sh us (Self.new (.path h), fs))).2.2 k = none ∧
    Dict.get (use sh .clean (useAll sh us (Self.new (.path h), fs))).2.2 d ≠ some .dir := by
  have h0 := useAll_outside sh us (Self.new (.path h), fs) (h := h) rfl
  have hr : (useAll sh us (Self.new (.path h), fs)).1.raw = .path h := h0.raw
  have ht' := h0.tree ht
  generalize useAll sh us (Self.new (.path h), fs) = s at *
  suffices key : ∀ d ∈ homeCaches h, Emptied (clean sh s).2.2 d from ⟨(key d hd).2 k hk hne, (key d hd).1⟩
  clear hd hk hne d k
  simp only [use] at hc
  have hk := keeps_loader sh hr
  unfold clean at hc ⊢
  split
  · rename_i e s' he; rw [he] at hc; cases hc
  · rename_i c d s' he
    rw [he] at hc hk
    dsimp only at hc
    have hd := loader_ok (sh := sh) (p := d) (c := c) hr (by rw [he])
    subst hd
    have r1 : s'.1.raw = .path h := hk.raw.trans hr
    have t1 : FS.Tree (s'.2.rmtreeQuiet (reposDir h)) := Files.rmtreeQuiet_tree _ _ (hk.tree ht')
    have e1 := emptied_rmtree s'.2 (hk.tree ht') (reposDir h)
    have b1 := keeps_build sh (s := (s'.1, s'.2.rmtreeQuiet (reposDir h))) r1
    have e1' := emptied_build (s := (s'.1, s'.2.rmtreeQuiet (reposDir h))) r1 e1 (not_suffix_build h (by decide))
    split
    · rename_i e t he'; rw [he'] at hc; cases hc
    · rename_i d t he'
      rw [he'] at hc b1 e1'
      dsimp only at hc
      have hd := build_ok (p := d) (s := (s'.1, s'.2.rmtreeQuiet (reposDir h))) r1 (by rw [he'])
      subst hd
      have r2 : t.1.raw = .path h := b1.raw.trans r1
      have t2 := b1.tree t1
      have e2 := emptied_rmtree t.2 t2 (buildDir h)
      have e21 := emptied_drop e1' (buildDir h)
      have b2 := keeps_http sh (s := (t.1, t.2.rmtreeQuiet (buildDir h))) r2
      have e3 := emptied_http (s := (t.1, t.2.rmtreeQuiet (buildDir h))) r2 e2 (not_suffix_http h (by decide))
      have e31 := emptied_http (s := (t.1, t.2.rmtreeQuiet (buildDir h))) r2 e21 (not_suffix_http h (by decide))
      split
      · rename_i e u he''; rw [he''] at hc; cases hc
      · rename_i d u he''
        rw [he''] at b2 e3 e31
        have hd := http_ok (p := d) (s := (t.1, t.2.rmtreeQuiet (buildDir h))) r2 (by rw [he''])
        subst hd
        have t3 : FS.Tree u.2 := b2.tree (Files.rmtreeQuiet_tree _ _ t2)
        intro d hd
        simp only [homeCaches, List.mem_cons, List.not_mem_nil, or_false] at hd
        rcases hd with rfl | rfl | rfl
        · exact emptied_drop e31 _
        · exact emptied_drop e3 _
        · exact emptied_rmtree u.2 t3 _

/-- C114 is violated: with settings for repositories that cannot be loaded the caches cannot be cleaned. -/
theorem home_clean_violated (sh : Shipped C) (h : Path) (fs : FS C) (c : C) (hf : Dict.get fs (repositorySettings h) = some (.file c)) (hl : sh.loadsRepositories c = false) :
    (∀ g, (use sh .clean (Self.new (.path h), fs)).1 ≠ .ok g) ∧
    ∀ k, InHomeCache h k → ∀ n, Dict.get fs k = some n → Dict.get (use sh .clean (Self.new (.path h), fs)).2.2 k = some n := by
  have hk := keeps_loader sh (h := h) (s := (Self.new (.path h), fs)) rfl
  have hbad : ∃ e, (useLoader sh (Self.new (.path h), fs)).1 = .error e := by
    have hh := keeps_home sh (h := h) (s := (Self.new (.path h), fs)) rfl
    have hl1 : (useHome ((Self.new (.path h), fs) : St C)).2.1.loader = none := by
      unfold useHome
      simp only [Self.new]
      cases mkdirs fs h <;> rfl
    unfold useLoader
    split
    · exact ⟨_, rfl⟩
    · rename_i q s' he
      have hq := home_ok (h := h) (p := q) (s := (Self.new (.path h), fs)) rfl (by rw [he])
      subst hq
      rw [he] at hh hl1
      have hg : Dict.get s'.2 (repositoriesFile q) = some (.file c) := KeptAt.some (hh.kept _) hf
      have hset : settings s'.2 (repositoriesFile q) sh.repositories = (.ok c, s'.2) := by
        unfold settings; rw [hg]
      dsimp only at hl1
      rw [hl1]
      dsimp only
      rw [hset]
      dsimp only
      rw [hl]
      exact ⟨_, rfl⟩
  obtain ⟨e, he⟩ := hbad
  have hcl : clean sh (Self.new (.path h), fs) = (.error e, (useLoader sh (Self.new (.path h), fs)).2) := by
    unfold clean
    split
    · rename_i e' s' he'; rw [he'] at he; cases he; rw [he']
    · rename_i c' d s' he'; rw [he'] at he; cases he
  simp only [use, hcl]
  refine ⟨fun g hg => (by cases hg), fun k _ n hn => KeptAt.some (hk.kept k) hn⟩

/-! ### C114: where the home directory is -/

theorem fold_plain : ∀ (cs : List Text) (d : Path), (∀ c ∈ cs, StayingName c) → cs.foldl Files.stepPath d = belowDir d cs
  | [], d, _ => rfl
  | c :: cs, d, h => by
    have hc := h c (by simp)
    rw [List.foldl_cons, fold_plain cs _ (fun x hx => h x (List.mem_cons_of_mem _ hx))]
    simp [belowDir, Files.stepPath, hc.1, hc.2.1, hc.2.2.1]

/-- C114 is violated: with `PKM_HOME` set nothing that needs the home directory works, and nothing is written to it. -/
theorem home_variable_violated (st : Start) (t : Text) (ht : t ≠ []) (hv : Dict.get st.vars t!"PKM_HOME" = some t) :
    pkmHome st = .ok (.text t) ∧ ∀ (sh : Shipped C) (u : Use) (fs : FS C),
      use sh u (Self.new (.text t), fs) = (.error .attribute, (Self.new (.text t), fs)) := by
  refine ⟨?_, fun sh u fs => ?_⟩
  · unfold pkmHome
    rw [hv]
    cases t with
    | nil => exact absurd rfl ht
    | cons c t => rfl
  · cases u <;> rfl

/-- C114: without `PKM_HOME` the home is the directory `pkm` in the directory of the data of the user: the one of the system, or
the absolute path that `XDG_DATA_HOME` has. Missing: `PKM_HOME`, and a `XDG_DATA_HOME` that is no absolute path. -/
theorem home_place_partial (st : Start) (h0 : Dict.get st.vars t!"PKM_HOME" = none ∨ Dict.get st.vars t!"PKM_HOME" = some []) :
    (st.system = t!"darwin" → pkmHome st = .ok (.path (belowDir st.user [t!"Library", t!"Application Support", t!"pkm"]))) ∧
    (st.system ≠ t!"darwin" → Dict.get st.vars t!"XDG_DATA_HOME" = none →
      pkmHome st = .ok (.path (belowDir st.user [t!".local", t!"share", t!"pkm"]))) ∧
    (st.system ≠ t!"darwin" → ∀ cs, (∀ c ∈ cs, StayingName c) →
      Dict.get st.vars t!"XDG_DATA_HOME" = some ('/' :: Files.joinSlash cs) →
      pkmHome st = .ok (.path (belowDir [] (cs ++ [t!"pkm"])))) := by
  have hp : pkmHome st = (defaultHome st).map .path := by
    unfold pkmHome
    rcases h0 with h | h <;> rw [h]
  refine ⟨fun hs => ?_, fun hs hx => ?_, fun hs cs hcs hx => ?_⟩
  · rw [hp]
    have : dataDir st = t!"~/Library/Application Support/" := by unfold dataDir; rw [if_pos hs]
    unfold defaultHome
    rw [this]
    rfl
  · rw [hp]
    have : dataDir st = t!"~/.local/share" := by unfold dataDir; rw [if_neg hs, hx]; rfl
    unfold defaultHome
    rw [this]
    rfl
  · rw [hp]
    have : dataDir st = '/' :: Files.joinSlash cs := by unfold dataDir; rw [if_neg hs, hx]; rfl
    unfold defaultHome
    rw [this, if_pos (by rfl)]
    have hparts : parts ('/' :: Files.joinSlash cs) = cs := by
      unfold parts
      have hsp : splitOn '/' ('/' :: Files.joinSlash cs) = [] :: splitOn '/' (Files.joinSlash cs) := by
        simp [splitOn]
      rw [hsp]
      cases cs with
      | nil => rfl
      | cons c cs =>
        rw [Files.splitOn_joinSlash (c :: cs) (by simp) (fun x hx => (hcs x hx).2.2.2)]
        rw [List.filter_cons_of_neg (by simp)]
        apply List.filter_eq_self.2
        intro x hx
        have := hcs x hx
        simp [this.1, this.2.1]
    rw [hparts]
    show Except.ok (HomeVal.path _) = _
    rw [fold_plain]
    intro c hc
    rcases List.mem_append.1 hc with x | x
    · exact hcs c x
    · rw [List.mem_singleton] at x; subst x; simp [StayingName]

/-- C114 is violated: an empty `XDG_DATA_HOME` counts as unset by its definition; pkm makes its home in the working directory. -/
theorem home_xdg_empty_violated (st : Start) (h0 : Dict.get st.vars t!"PKM_HOME" = none) (hs : st.system ≠ t!"darwin")
    (hx : Dict.get st.vars t!"XDG_DATA_HOME" = some []) : pkmHome st = .ok (.path (belowDir st.cwd [t!"pkm"])) := by
  have hp : pkmHome st = (defaultHome st).map .path := by unfold pkmHome; rw [h0]
  have : dataDir st = [] := by unfold dataDir; rw [if_neg hs, hx]; rfl
  rw [hp]
  unfold defaultHome
  rw [this]
  rfl

namespace Example

def home : Path := belowDir [] [t!"home", t!"ada", t!".local", t!"share", t!"pkm"]

def shipped : Shipped Text := ⟨t!"shipped general", t!"shipped repositories", fun _ => true, fun c => c != t!"[broken"⟩

/-- A home with settings of its own and a page in the cache of the http client. -/
def disk : FS Text :=
  [([], .dir), ([t!"home"], .dir), ([t!"ada", t!"home"], .dir), (belowDir [] [t!"home", t!"ada", t!".local"], .dir),
   (belowDir [] [t!"home", t!"ada", t!".local", t!"share"], .dir), (home, .dir),
   (belowDir home [t!"etc"], .dir), (belowDir home [t!"etc", t!"pkm"], .dir), (generalSettings home, .file t!"my settings"),
   (belowDir home [t!"resources"], .dir), (belowDir home [t!"resources", t!"http"], .dir),
   (belowDir home [t!"resources", t!"http", t!"page"], .file t!"<html>")]

example : (use shipped .config (Self.new (.path home), disk)).1 = .ok (.settings t!"my settings") := rfl
example : (use shipped .loader (Self.new (.path home), disk)).1 = .ok (.settings t!"shipped repositories") := rfl

/-- The page is there before and not after cleaning; the settings stay; then the client can be used again. -/
example : (Dict.get (useAll shipped [.http, .build, .loader] (Self.new (.path home), disk)).2
      (belowDir home [t!"resources", t!"http", t!"page"])).isSome = true ∧
    Dict.get (useAll shipped [.http, .build, .clean] (Self.new (.path home), disk)).2
      (belowDir home [t!"resources", t!"http", t!"page"]) = none ∧
    Dict.get (useAll shipped [.http, .build, .clean] (Self.new (.path home), disk)).2 (generalSettings home) =
      some (.file t!"my settings") ∧
    Dict.get (useAll shipped [.http, .build, .clean, .http] (Self.new (.path home), disk)).2
      (belowDir home [t!"resources", t!"http"]) = some .dir := by decide +kernel

example : CleansSucceed shipped [.http, .clean, .build] (Self.new (.path home), disk) :=
  ⟨(fun h => by cases h), (fun _ => ⟨_, rfl⟩), (fun h => by cases h), trivial⟩

example : (use shipped .clean (useAll shipped [.http] (Self.new (.path home), disk))).1 = .ok .done := rfl

def start (vars : Dict Text Text) : Start := ⟨t!"linux", vars, [t!"ada", t!"home"], [], [t!"work"]⟩

example : pkmHome (start []) = .ok (.path home) := rfl
example : pkmHome (start [(t!"XDG_DATA_HOME", t!"/srv/data")]) = .ok (.path (belowDir [] [t!"srv", t!"data", t!"pkm"])) := rfl

end Example

/-- C114 is violated: if a file is in the way of the workspace of the http client, cleaning fails in its middle; the build cache is
given out afterwards, and its workspace is not there. -/
theorem home_workspace_violated :
    ∃ (fs : FS Text) (p : Path), (use Example.shipped .build (useAll Example.shipped [.build, .clean]
        (Self.new (.path Example.home), fs))).1.toOption.map (fun g => match g with | .dir p => p | _ => []) = some p ∧
      p = belowDir Example.home [t!"build-cache"] ∧
      Dict.get (use Example.shipped .build (useAll Example.shipped [.build, .clean]
        (Self.new (.path Example.home), fs))).2.2 p = none :=
  ⟨[([], .dir), ([t!"home"], .dir), ([t!"ada", t!"home"], .dir), (belowDir [] [t!"home", t!"ada", t!".local"], .dir),
    (belowDir [] [t!"home", t!"ada", t!".local", t!"share"], .dir), (Example.home, .dir),
    (belowDir Example.home [t!"resources"], .file [])], _, rfl, rfl, by decide +kernel⟩

end Home
end Pkm
