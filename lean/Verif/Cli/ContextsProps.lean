import Verif.Cli.Contexts
set_option linter.unusedVariables false
set_option linter.unusedSimpArgs false
/-
Theorems about the context of a command (C85).
-/
namespace Pkm
open Ctx

namespace Spec

/-- The directory of a context. -/
def contextDir : Found → Dir
  | .project d => d
  | .group d => d
  | .env d => d
  | .attached d => d
  | .zoo d => d

/-- The directory contains the file that makes it this context. The environment attached to a project counts where
there is a project and the directory is not itself an environment. -/
inductive ContextIs (disk : Dir → Bool) : Found → Prop where
  | project {d} : disk (d ++ [t!"pyproject.toml"]) = true → ContextIs disk (.project d)
  | group {d} : disk (d ++ [t!"pyproject-group.toml"]) = true → ContextIs disk (.group d)
  | env {d} : disk (d ++ [t!"pyvenv.cfg"]) = true → ContextIs disk (.env d)
  | attached {d} : disk (d ++ [t!"pyproject.toml"]) = true → disk (d ++ [t!"pyvenv.cfg"]) = false →
      ContextIs disk (.attached d)
  | zoo {d} : disk (d ++ [t!"env-zoo.toml"]) = true → ContextIs disk (.zoo d)

/-- The command has something to do with such a context. -/
def takesContext (h : Handlers) : Found → Bool
  | .project _ => h.project
  | .group _ => h.group
  | .env _ => h.env
  | .attached _ => h.env
  | .zoo _ => h.zoo

/-- Projects come before groups, groups before environments, environments before zoos. -/
def contextRank : Found → Nat
  | .project _ => 0
  | .group _ => 1
  | .env _ => 2
  | .attached _ => 2
  | .zoo _ => 3

/-- The command can work in this directory, on this context: it is there, the command takes it, and the command takes
no context there that comes before. -/
def WorksAt (h : Handlers) (disk : Dir → Bool) (f : Found) : Prop :=
  ContextIs disk f ∧ takesContext h f = true ∧
    ∀ g, contextDir g = contextDir f → ContextIs disk g → takesContext h g = true → contextRank f ≤ contextRank g

/-- The context of the nearest directory, the working directory first, in which the command can work. -/
def NearestContext (h : Handlers) (disk : Dir → Bool) (cwd : Dir) (f : Found) : Prop :=
  WorksAt h disk f ∧ contextDir f <+: cwd ∧
    ∀ g, WorksAt h disk g → contextDir g <+: cwd → contextDir g <+: contextDir f

/-- `p` is the parent of `c`, or the parent of its parent, and so on. -/
inductive ParentOf : Cmd → Cmd → Prop where
  | direct {p w a} : ParentOf p (.sub p w a)
  | above {q p w a} : ParentOf q p → ParentOf q (.sub p w a)

end Spec
open Spec

namespace Ctx

theorem executeAt_some {h : Handlers} {disk : Dir → Bool} {d : Dir} {f : Found} (e : executeAt h disk d = some f) :
    contextDir f = d ∧ WorksAt h disk f := by
  simp only [executeAt, whenHandled, lookupProject, lookupGroup, lookupEnv, lookupZoo] at e
  cases hp : h.project <;> cases hg : h.group <;> cases he : h.env <;> cases hz : h.zoo <;>
    cases ep : disk (d ++ [pyproject]) <;> cases eg : disk (d ++ [pygroup]) <;>
    cases ee : disk (d ++ [pyvenv]) <;> cases ez : disk (d ++ [zooFile]) <;>
    simp [hp, hg, he, hz, ep, eg, ee, ez, orElse] at e <;>
    (subst e
     refine ⟨rfl, ?_, ?_, ?_⟩
     · first
       | exact .project ep
       | exact .group eg
       | exact .env ee
       | exact .attached ep ee
       | exact .zoo ez
     · simp [takesContext, hp, hg, he, hz]
     · intro g gd gc gt
       cases gc <;> simp [contextDir] at gd <;> subst gd <;>
         simp_all [takesContext, contextRank, pyproject, pygroup, pyvenv, zooFile])

theorem executeAt_none {h : Handlers} {disk : Dir → Bool} {d : Dir} (e : executeAt h disk d = none) (f : Found)
    (fd : contextDir f = d) : ¬ (ContextIs disk f ∧ takesContext h f = true) := by
  simp only [executeAt, whenHandled, lookupProject, lookupGroup, lookupEnv, lookupZoo] at e
  rintro ⟨c, t⟩
  cases c <;> simp [contextDir] at fd <;> subst fd <;> simp [takesContext] at t <;>
    simp_all [orElse, pyproject, pygroup, pyvenv, zooFile] <;>
    (repeat' split at e) <;> simp_all

/-- Only one context of a directory is the one the command works on. -/
theorem worksAt_unique {h : Handlers} {disk : Dir → Bool} {f g : Found} (hf : WorksAt h disk f) (hg : WorksAt h disk g)
    (e : contextDir f = contextDir g) : f = g := by
  have a := hf.2.2 g e.symm hg.1 hg.2.1
  have b := hg.2.2 f e hf.1 hf.2.1
  have cf := hf.1
  have cg := hg.1
  clear hf hg
  cases cf <;> cases cg <;> simp_all [contextDir, contextRank]

theorem mem_parentsRev {x : List Text} : ∀ {r : List Text}, x ∈ parentsRev r ↔ x <:+ r ∧ x ≠ r
  | [] => by simp [parentsRev]
  | c :: r => by
    simp only [parentsRev, List.mem_cons, mem_parentsRev (r := r)]
    constructor
    · rintro (rfl | ⟨a, b⟩)
      · exact ⟨List.suffix_cons _ _, by simp⟩
      · refine ⟨a.trans (List.suffix_cons _ _), ?_⟩
        rintro rfl
        have := a.length_le
        simp at this
        omega
    · rintro ⟨a, b⟩
      rcases List.suffix_cons_iff.mp a with rfl | a
      · exact absurd rfl b
      · by_cases e : x = r
        · exact .inl e
        · exact .inr ⟨a, e⟩

theorem mem_parents {x d : Dir} : x ∈ parents d ↔ x <+: d ∧ x ≠ d := by
  simp only [parents, List.mem_map, mem_parentsRev]
  constructor
  · rintro ⟨y, ⟨a, b⟩, rfl⟩
    refine ⟨by rw [← List.reverse_suffix]; simpa using a, ?_⟩
    rintro rfl
    simp at b
  · rintro ⟨a, b⟩
    refine ⟨x.reverse, ⟨by simpa using a, ?_⟩, by simp⟩
    intro e
    exact b (List.reverse_inj.mp e)

/-- From the nearest to the farthest. -/
def Descends : List Dir → Prop
  | [] => True
  | d :: ds => (∀ x ∈ ds, x <+: d) ∧ Descends ds

theorem descends_parents (d : Dir) : Descends (parents d) := by
  have key : ∀ r : List Text, Descends ((parentsRev r).map List.reverse) := by
    intro r
    induction r with
    | nil => exact trivial
    | cons c r ih =>
      refine ⟨?_, ih⟩
      intro x hx
      simp only [List.mem_map, mem_parentsRev] at hx
      obtain ⟨y, ⟨a, b⟩, rfl⟩ := hx
      simpa using a
  exact key _

theorem firstOf_some {h : Handlers} {disk : Dir → Bool} {f : Found} : ∀ {ds : List Dir}, Descends ds →
    firstOf h disk ds = some f → WorksAt h disk f ∧ contextDir f ∈ ds ∧
      ∀ g, WorksAt h disk g → contextDir g ∈ ds → contextDir g <+: contextDir f
  | [], _, e => by simp [firstOf] at e
  | d :: ds, hd, e => by
    simp only [firstOf] at e
    cases ex : executeAt h disk d with
    | some f' =>
      simp [ex, orElse] at e
      subst e
      obtain ⟨a, b⟩ := executeAt_some ex
      refine ⟨b, by simp [a], ?_⟩
      intro g _ hg
      rw [a]
      rcases List.mem_cons.mp hg with hg | hg
      · rw [hg]; exact List.prefix_refl _
      · exact hd.1 _ hg
    | none =>
      simp [ex, orElse] at e
      obtain ⟨a, b, c⟩ := firstOf_some hd.2 e
      refine ⟨a, List.mem_cons_of_mem _ b, ?_⟩
      intro g hg hm
      rcases List.mem_cons.mp hm with hm | hm
      · exact absurd ⟨hg.1, hg.2.1⟩ (executeAt_none ex g hm)
      · exact c g hg hm

theorem firstOf_none {h : Handlers} {disk : Dir → Bool} : ∀ {ds : List Dir}, firstOf h disk ds = none →
    ∀ d ∈ ds, executeAt h disk d = none
  | [], _, _, hd => by simp at hd
  | d :: ds, e, x, hx => by
    simp only [firstOf] at e
    cases ex : executeAt h disk d with
    | some f' => simp [ex, orElse] at e
    | none =>
      simp [ex, orElse] at e
      rcases List.mem_cons.mp hx with rfl | hx
      · exact ex
      · exact firstOf_none e x hx

/-- The search of a context that looks upwards. -/
theorem search_eq (h : Handlers) (disk : Dir → Bool) (d : Dir) :
    orElse (executeAt h disk d) (firstOf h disk (parents d)) = firstOf h disk (d :: parents d) := rfl

theorem mem_search {x d : Dir} : x ∈ d :: parents d ↔ x <+: d := by
  rw [List.mem_cons, mem_parents]
  constructor
  · rintro (rfl | ⟨a, _⟩)
    · exact List.prefix_refl _
    · exact a
  · intro a
    by_cases e : x = d
    · exact .inl e
    · exact .inr ⟨a, e⟩

theorem descends_search (d : Dir) : Descends (d :: parents d) :=
  ⟨fun _ hx => (mem_parents.mp hx).1, descends_parents d⟩

theorem nearest_unique {h : Handlers} {disk : Dir → Bool} {cwd : Dir} {f g : Found} (hf : NearestContext h disk cwd f)
    (hg : NearestContext h disk cwd g) : f = g := by
  apply worksAt_unique hf.1 hg.1
  have a := hf.2.2 g hg.1 hg.2.1
  have b := hg.2.2 f hf.1 hf.2.1
  exact List.IsPrefix.eq_of_length b (Nat.le_antisymm b.length_le a.length_le)

theorem search_iff {h : Handlers} {disk : Dir → Bool} {d : Dir} {f : Found} :
    firstOf h disk (d :: parents d) = some f ↔ NearestContext h disk d f := by
  constructor
  · intro e
    obtain ⟨a, b, c⟩ := firstOf_some (descends_search d) e
    exact ⟨a, mem_search.mp b, fun g hg hp => c g hg (mem_search.mpr hp)⟩
  · intro hn
    cases e : firstOf h disk (d :: parents d) with
    | none =>
      have := firstOf_none e (contextDir f) (mem_search.mpr hn.2.1)
      exact absurd ⟨hn.1.1, hn.1.2.1⟩ (executeAt_none this f rfl)
    | some g =>
      obtain ⟨a, b, c⟩ := firstOf_some (descends_search d) e
      rw [nearest_unique hn ⟨a, mem_search.mp b, fun g hg hp => c g hg (mem_search.mpr hp)⟩]

end Ctx

/-! ## The context of a command -/

/-- Without options a command works on the context of the nearest directory in which it can work, the working directory
first, then its parents. -/
theorem context_nearest (h : Handlers) (disk : Dir → Bool) (cwd : Dir) (site : Option Text) (f : Found) :
    run ⟨cwd, true, false, site⟩ h disk = .on f ↔ NearestContext h disk cwd f := by
  rw [← search_iff]
  simp only [run, search_eq, if_true, Bool.false_eq_true, if_false]
  cases e : firstOf h disk (cwd :: parents cwd) with
  | some g => simp
  | none =>
    simp only [reduceCtorEq, iff_false]
    split
    · simp
    · split <;> simp

/-- A project with an environment in it. -/
def Ctx.exDisk : Dir → Bool := fun d =>
  [[t!"w", t!"p", t!"pyproject.toml"], [t!"w", t!"p", t!".venv", t!"pyvenv.cfg"], [t!"w", t!"pyproject-group.toml"]].contains d

example : run ⟨[t!"w", t!"p", t!"src", t!"p"], true, false, none⟩ { project := true, env := true } exDisk
    = .on (.project [t!"w", t!"p"]) := by decide
example : run ⟨[t!"w", t!"p", t!".venv", t!"bin"], true, false, none⟩ { project := true, env := true } exDisk
    = .on (.env [t!"w", t!"p", t!".venv"]) := by decide
example : run ⟨[t!"w", t!"p"], true, false, none⟩ { group := true } exDisk = .on (.group [t!"w"]) := by decide
example : run ⟨[t!"w", t!"p"], true, false, none⟩ { env := true } exDisk = .on (.attached [t!"w", t!"p"]) := by decide

/-- With `-c DIR` it works on the context of that directory and of no other. -/
theorem context_given (h : Handlers) (disk : Dir → Bool) (d : Dir) (site : Option Text) (f : Found) :
    run ⟨d, false, false, site⟩ h disk = .on f ↔ contextDir f = d ∧ WorksAt h disk f := by
  simp only [run, Bool.false_eq_true, if_false]
  cases e : executeAt h disk d with
  | some g =>
    have hg := executeAt_some e
    simp only [orElse, Outcome.on.injEq]
    constructor
    · rintro rfl
      exact hg
    · rintro ⟨a, b⟩
      exact worksAt_unique hg.2 b (hg.1.trans a.symm)
  | none =>
    simp only [orElse]
    constructor
    · intro e'
      exfalso
      revert e'
      split
      · simp
      · split <;> simp
    · rintro ⟨a, b⟩
      exact absurd ⟨b.1, b.2.1⟩ (executeAt_none e f a)

example : run ⟨[t!"w", t!"p", t!"src"], false, false, none⟩ { project := true, missing := true } exDisk = .missing := by decide

/-- When there is no such directory nothing is worked on: the command runs without a context if it can, and is refused
otherwise. -/
theorem context_none (h : Handlers) (disk : Dir → Bool) (cwd : Dir) (site : Option Text)
    (no : ∀ f, contextDir f <+: cwd → ¬ (ContextIs disk f ∧ takesContext h f = true)) :
    run ⟨cwd, true, false, site⟩ h disk
      = if h.free then .free else if h.missing then .missing else .unsupported := by
  simp only [run, search_eq, if_true, Bool.false_eq_true, if_false]
  cases e : firstOf h disk (cwd :: parents cwd) with
  | some g =>
    have := search_iff.mp e
    exact absurd ⟨this.1.1, this.1.2.1⟩ (no g this.2.1)
  | none => rfl

example : ∀ f, contextDir f <+: [t!"w"] → ¬ (ContextIs exDisk f ∧ takesContext { project := true } f = true) := by
  rintro f hp ⟨c, t⟩
  cases c <;> simp [takesContext] at t
  rename_i d e
  simp only [contextDir] at hp
  rcases List.prefix_cons_iff.mp hp with rfl | ⟨t, rfl, ht⟩
  · revert e; decide
  · have : t = [] := List.prefix_nil.mp ht
    subst this
    revert e; decide

/-- Moving into directories that are no contexts changes nothing. -/
theorem context_of_subdirectory (h : Handlers) (disk : Dir → Bool) (cwd below : Dir) (site : Option Text)
    (plain : ∀ f, cwd <+: contextDir f → contextDir f <+: cwd ++ below → contextDir f ≠ cwd →
      ¬ (ContextIs disk f ∧ takesContext h f = true)) :
    run ⟨cwd ++ below, true, false, site⟩ h disk = run ⟨cwd, true, false, site⟩ h disk := by
  have lift : ∀ f, WorksAt h disk f → contextDir f <+: cwd ++ below → contextDir f <+: cwd := by
    intro f hf hp
    rcases List.prefix_or_prefix_of_prefix hp (List.prefix_append cwd below) with a | a
    · exact a
    · by_cases e : contextDir f = cwd
      · rw [e]; exact List.prefix_refl _
      · exact absurd ⟨hf.1, hf.2.1⟩ (plain f a hp e)
  have same : ∀ f, NearestContext h disk (cwd ++ below) f ↔ NearestContext h disk cwd f := by
    intro f
    constructor
    · rintro ⟨a, b, c⟩
      exact ⟨a, lift f a b, fun g hg hp => c g hg (hp.trans (List.prefix_append _ _))⟩
    · rintro ⟨a, b, c⟩
      exact ⟨a, b.trans (List.prefix_append _ _), fun g hg hp => c g hg (lift g hg hp)⟩
  simp only [run, search_eq, if_true, Bool.false_eq_true, if_false]
  cases e : firstOf h disk (cwd :: parents cwd) with
  | some f =>
    rw [search_iff.mpr ((same f).mpr (search_iff.mp e))]
  | none =>
    cases e' : firstOf h disk ((cwd ++ below) :: parents (cwd ++ below)) with
    | some g =>
      have := search_iff.mpr ((same g).mp (search_iff.mp e'))
      rw [e] at this
      cases this
    | none => rfl

example : run ⟨[t!"w", t!"p"] ++ [t!"src", t!"p"], true, false, none⟩ { project := true, env := true } exDisk
    = run ⟨[t!"w", t!"p"], true, false, none⟩ { project := true, env := true } exDisk := by decide

/-- `-g` leads to the environment of the interpreter that runs pkm, whatever the directories contain; an empty site is
as none. -/
theorem context_global (h : Handlers) (disk : Dir → Bool) (cwd : Dir) (lookup : Bool) (site : Option Text)
    (env : h.env = true) :
    run ⟨cwd, lookup, true, site⟩ h disk = .global ((site.filter (fun s => !s.isEmpty)).getD t!"user") := by
  cases site with
  | none => simp [run, env, siteOf]
  | some s => cases s with
    | nil => simp [run, env, siteOf]; rfl
    | cons c cs => simp [run, env, siteOf]; rfl

example : run ⟨[t!"w", t!"p"], false, true, none⟩ { project := true, env := true } exDisk = .global t!"user" := by decide

/-- A command that does not take environments is not run by `-g` on anything. -/
theorem context_global_refused (h : Handlers) (disk : Dir → Bool) (cwd : Dir) (lookup : Bool) (site : Option Text)
    (env : h.env = false) :
    run ⟨cwd, lookup, true, site⟩ h disk = if h.missing then .missing else .unsupported := by
  simp [run, env]

example : run ⟨[t!"w", t!"p"], false, true, none⟩ { project := true } exDisk = .unsupported := by decide

/-! ## The options that choose it -/

/-- The words of a command: `pkm`, then those after it. -/
theorem Ctx.parents_length (c : Cmd) : c.parents.length = c.path.length := by
  induction c with
  | root a => rfl
  | sub p w a ih => simp [Cmd.parents, Cmd.path, ih]

theorem Ctx.parents_path (c : Cmd) : ∀ i p, c.parents[i]? = some p → p.path = c.path.take i := by
  induction c with
  | root a => simp [Cmd.parents]
  | sub q w a ih =>
    intro i p e
    have hl := parents_length q
    simp only [Cmd.parents] at e
    by_cases hi : i < q.parents.length
    · rw [List.getElem?_append_left hi] at e
      rw [ih i p e, Cmd.path, List.take_append_of_le_length (by omega)]
    · have : i = q.parents.length := by
        have := (List.getElem?_eq_some_iff.mp e).1
        simp at this
        omega
      subst this
      rw [List.getElem?_append_right (Nat.le_refl _)] at e
      simp at e
      subst e
      simp [Cmd.path, hl]

theorem Ctx.wordsAgree_iff : ∀ (ws : List Text) (ps : List Cmd), wordsAgree ws ps = true ↔
    ∀ (i : Nat) (w : Text) (p : Cmd), ws[i]? = some w → ps[i]? = some p → p.path.getLast? = some w
  | [], ps => by simp [wordsAgree]
  | w :: ws, [] => by simp [wordsAgree]
  | w :: ws, p :: ps => by
    simp only [wordsAgree, Bool.and_eq_true, wordsAgree_iff ws ps, beq_iff_eq]
    constructor
    · rintro ⟨a, b⟩ i x q e1 e2
      cases i with
      | zero => simp at e1 e2; subst e1; subst e2; exact a
      | succ i => simp at e1 e2; exact b i x q e1 e2
    · intro k
      exact ⟨k 0 w p rfl rfl, fun i x q e1 e2 => k (i + 1) x q (by simpa using e1) (by simpa using e2)⟩

theorem Ctx.parentByPath_iff (c : Cmd) (words : List Text) (p : Cmd) :
    c.parentByPath words = .ok p ↔
      words <+: c.path ∧ words ≠ c.path ∧ c.parents[words.length]? = some p := by
  have hl := parents_length c
  have agree : words.length < c.path.length → (wordsAgree words c.parents.tail = true ↔ words <+: c.path) := by
    intro hlt
    rw [wordsAgree_iff, List.prefix_iff_eq_take]
    have at_ : ∀ (i : Nat) (p : Cmd), c.parents.tail[i]? = some p → p.path.getLast? = c.path[i]? := by
      intro i p e
      rw [List.getElem?_tail] at e
      have := parents_path c (i + 1) p e
      rw [this, List.getLast?_take]
      have hi := (List.getElem?_eq_some_iff.mp e).1
      rw [if_neg (by omega)]
      have : i < c.path.length := by omega
      simp [this]
    constructor
    · intro k
      apply List.ext_getElem?
      intro i
      by_cases hi : i < words.length
      · have hp : i < c.parents.tail.length := by simp; omega
        have e1 := List.getElem?_eq_getElem hi
        have e2 := List.getElem?_eq_getElem hp
        have := k i _ _ e1 e2
        rw [at_ i _ e2] at this
        rw [List.getElem?_take_of_lt hi, this, e1]
      · rw [List.getElem?_eq_none (by omega), List.getElem?_eq_none (by simp; omega)]
    · intro e i w p e1 e2
      rw [at_ i p e2]
      have hi := (List.getElem?_eq_some_iff.mp e1).1
      rw [e, List.getElem?_take_of_lt hi] at e1
      exact e1
  simp only [Cmd.parentByPath]
  by_cases h1 : c.parents.length < words.length
  · rw [if_pos h1]
    simp only [reduceCtorEq, false_iff, not_and]
    intro a
    have := a.length_le
    omega
  · rw [if_neg h1]
    by_cases h2 : words.length = c.parents.length
    · have : c.parents[words.length]? = none := List.getElem?_eq_none (by omega)
      rw [this]
      split <;> simp
    · have hlt : words.length < c.path.length := by omega
      have ne : words ≠ c.path := by
        rintro rfl
        omega
      by_cases h3 : wordsAgree words c.parents.tail = true
      · rw [if_neg (by simp [h3])]
        have : words.length < c.parents.length := by omega
        rw [List.getElem?_eq_getElem this]
        simp [(agree hlt).mp h3, ne]
      · rw [if_pos (by simp [h3])]
        simp [mt (agree hlt).mpr h3]

theorem Ctx.mem_cmd_parents {p c : Cmd} : p ∈ c.parents ↔ ParentOf p c := by
  induction c with
  | root a =>
    simp only [Cmd.parents, List.not_mem_nil, false_iff]
    intro h
    cases h
  | sub q w a ih =>
    simp only [Cmd.parents, List.mem_append, ih, List.mem_singleton]
    constructor
    · rintro (h | rfl)
      · exact .above h
      · exact .direct
    · intro h
      cases h with
      | direct => exact .inr rfl
      | above h => exact .inl h

/-- Asking for the parent with these words gives the parent with these words. -/
theorem parent_by_path (c : Cmd) (words : List Text) (p : Cmd) :
    c.parentByPath words = .ok p ↔ ParentOf p c ∧ p.path = words := by
  rw [parentByPath_iff, ← mem_cmd_parents]
  have hl := parents_length c
  constructor
  · rintro ⟨a, b, e⟩
    refine ⟨List.mem_of_getElem? e, ?_⟩
    rw [parents_path c _ p e]
    exact (List.prefix_iff_eq_take.mp a).symm
  · rintro ⟨hm, rfl⟩
    obtain ⟨i, e⟩ := List.mem_iff_getElem?.mp hm
    have hi := (List.getElem?_eq_some_iff.mp e).1
    have hp := parents_path c i p e
    have hlen : p.path.length = i := by rw [hp, List.length_take]; omega
    refine ⟨by rw [hp]; exact List.take_prefix _ _, ?_, by rw [hlen]; exact e⟩
    intro h
    rw [h] at hlen
    omega

/-- There is one when the words are the first words of the command and not all of them. -/
theorem parent_by_path_found (c : Cmd) (words : List Text) :
    (∃ p, c.parentByPath words = .ok p) ↔ words <+: c.path ∧ words ≠ c.path := by
  constructor
  · rintro ⟨p, e⟩
    exact ⟨((parentByPath_iff c words p).mp e).1, ((parentByPath_iff c words p).mp e).2.1⟩
  · rintro ⟨a, b⟩
    have hl := parents_length c
    have : words.length < c.parents.length := by
      rw [hl]
      exact Nat.lt_of_le_of_ne a.length_le (fun e => b (List.IsPrefix.eq_of_length a e))
    exact ⟨_, (parentByPath_iff c words _).mpr ⟨a, b, List.getElem?_eq_getElem this⟩⟩

/-- `pkm -g install -s system requests`. -/
def Ctx.exInstall (context global_ site : Option Text) : Cmd :=
  .sub (.sub (.root []) t!"pkm" [(t!"context", context), (t!"global_context", global_)]) t!"install" [(t!"site", site)]

example : (exInstall none none none).parentByPath [t!"pkm"]
    = .ok (.sub (.root []) t!"pkm" [(t!"context", none), (t!"global_context", none)]) := rfl

/-- C85. The value of an option of a command is the one of the command itself, or of the nearest parent that has it: the
commands from the command itself up to the root are asked in this order. -/
theorem option_nearest (k : Text) (c : Cmd) :
    c.getattr k = (c :: c.parents.reverse).findSome? (fun p => Dict.get p.args k) := by
  induction c with
  | root a => simp only [Cmd.getattr, Cmd.parents, Cmd.args, List.reverse_nil, List.findSome?]; cases Dict.get a k <;> rfl
  | sub p w a ih =>
    simp only [Cmd.getattr, Cmd.parents, List.reverse_append, List.reverse_cons, List.reverse_nil, List.nil_append,
      List.cons_append]
    rw [List.findSome?_cons]
    simp only [Cmd.args]
    cases Dict.get a k with
    | some v => rfl
    | none => exact ih

example : (exInstall (some t!"d") none none).getattr t!"context" = some (some t!"d") := rfl

/-- What a command below `pkm` takes its context from: `-c` and `-g` given to `pkm`, and the working directory. -/
theorem context_options (parsed : Text → Dir) (cwd : Dir) (c : Cmd) (p : Cmd) (given : Option Text) (g : Option Text)
    (hp : c.parentByPath [t!"pkm"] = .ok p) (hc : p.getattr t!"context" = some given)
    (hg : p.getattr t!"global_context" = some g) (hs : given ≠ some []) (site : p.getattr t!"site" = none) :
    contextOf parsed cwd c = .ok (match given, g with
      | some d, _ => ⟨parsed d, false, false, none⟩
      | none, some _ => ⟨cwd, false, true, none⟩
      | none, none => ⟨cwd, true, false, none⟩) := by
  simp only [contextOf, hp, hc, hg, site]
  cases given with
  | none => cases g <;> simp
  | some d => cases d with
    | nil => exact absurd rfl hs
    | cons x xs => simp

example : contextOf (fun t => [t]) [t!"w"] (exInstall (some t!"d") none none) = .ok ⟨[t!"d"], false, false, none⟩ := rfl

/-- The claim "`-g` with `-s system` installs in the site packages of the system" fails: the site is an option of the
command, but it is looked up among those of `pkm`, so that for every command and every site asked for it is the site of
the user. -/
theorem site_violated (parsed : Text → Dir) (cwd : Dir) (site g : Text) (h : Handlers) (disk : Dir → Bool)
    (env : h.env = true) :
    ∃ c, contextOf parsed cwd (exInstall none (some g) (some site)) = .ok c ∧ run c h disk = .global t!"user" :=
  ⟨⟨cwd, false, true, none⟩, rfl, by simp [run, env, siteOf]⟩

/-- The claim "every command has a context" fails for `pkm` without a command after it: looking for it ends in an
`IndexError`. -/
theorem context_of_pkm_violated (parsed : Text → Dir) (cwd : Dir) (root args : Args) :
    contextOf parsed cwd (.sub (.root root) t!"pkm" args) = .error .indexError := rfl

/-- For every command below `pkm` there is one. -/
theorem context_of_partial (parsed : Text → Dir) (cwd : Dir) (c : Cmd) (rest : List Text) (below : rest ≠ [])
    (path : c.path = t!"pkm" :: rest) : ∃ x, contextOf parsed cwd c = .ok x := by
  have hl := parents_length c
  have : 1 < c.parents.length := by
    rw [hl, path]
    cases rest with
    | nil => exact absurd rfl below
    | cons => simp
  have hp : c.parentByPath [t!"pkm"] = .ok c.parents[1] := by
    rw [parentByPath_iff]
    refine ⟨by rw [path]; exact ⟨rest, rfl⟩, ?_, by simp [this]⟩
    rw [path]
    intro e
    injection e with _ e
    exact below e.symm
  simp only [contextOf, hp]
  split
  · exact ⟨_, rfl⟩
  · split <;> exact ⟨_, rfl⟩

example : (exInstall none none none).path = t!"pkm" :: [t!"install"] := rfl

/-! ## The project whose tasks run -/

/-- A command that takes projects, in a directory whose nearest context of any kind is a project: the tasks that run
around it are those of the project it works on. -/
theorem tasks_project_partial (h : Handlers) (disk : Dir → Bool) (cwd d : Dir) (site : Option Text)
    (on : run ⟨cwd, true, false, site⟩ h disk = .on (.project d)) :
    tasksProject ⟨cwd, true, false, site⟩ disk = some d := by
  rw [context_nearest] at on
  obtain ⟨a, b, c⟩ := on
  have hx := a.1
  cases hx with
  | project e =>
  have : run ⟨cwd, true, false, site⟩ { project := true, missing := true } disk = .on (.project d) := by
    rw [context_nearest]
    refine ⟨⟨.project e, rfl, ?_⟩, b, ?_⟩
    · intro g _ _ _
      exact Nat.zero_le _
    · intro g hg hp
      have t := hg.2.1
      have ci := hg.1
      cases ci <;> simp [takesContext] at t
      rename_i d' e'
      refine c (.project d') ⟨.project e', a.2.1, ?_⟩ hp
      intro g _ _ _
      exact Nat.zero_le _
  simp [tasksProject, lookupOfProject, this]

example : run ⟨[t!"w", t!"p", t!"src"], true, false, none⟩ { project := true, env := true } exDisk
    = .on (.project [t!"w", t!"p"]) := by decide

/-- The claim "the tasks of a project run around the commands that work on it" fails: in the directory of an
environment inside a project, a command works on that environment and the tasks of the project around it run. -/
theorem tasks_project_violated : ∃ (disk : Dir → Bool) (cwd p e : Dir) (h : Handlers), p ≠ e ∧
    run ⟨cwd, true, false, none⟩ h disk = .on (.env e) ∧ tasksProject ⟨cwd, true, false, none⟩ disk = some p :=
  ⟨exDisk, [t!"w", t!"p", t!".venv"], [t!"w", t!"p"], [t!"w", t!"p", t!".venv"], { project := true, env := true },
    by decide, by decide, by decide⟩

end Pkm
