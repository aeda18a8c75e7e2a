import Verif.Projects.Groups
set_option linter.unusedVariables false
set_option linter.unusedSimpArgs false
/-
Property C65: project groups contain what is listed in them.
-/
namespace Pkm
namespace Spec
open Projects

/-- The directory `d` has a group configuration with an entry for the directory `c`. -/
def Entry (t : Tree) (d c : Dir) : Prop := ∃ es e, t.group d = some es ∧ e ∈ es ∧ t.resolve d e = c

/-- A project belongs to a group: it is listed there, or in a group that is listed there, at any depth. -/
inductive BelongsTo (t : Tree) : Dir → Dir → Prop
  | listed {g p n} : Entry t g p → t.project p = some n → BelongsTo t p g
  | nested {g h p} : Entry t g h → t.project h = none → BelongsTo t p h → BelongsTo t p g

/-- `a` is a proper ancestor of `d`. -/
def Above (a d : Dir) : Prop := ∃ r, r ≠ [] ∧ d = a ++ r

/-- The nearest group above a directory that lists it. -/
def NearestGroup (t : Tree) (d g : Dir) : Prop :=
  Above g d ∧ Entry t g d ∧ ∀ h, Above h d → Entry t h d → h = g ∨ Above h g

end Spec

namespace Projects
open Spec

theorem mem_listed (t : Tree) (g c : Dir) : c ∈ t.listed g ↔ Entry t g c := by
  simp only [Tree.listed, Entry]
  cases h : t.group g with
  | none => simp
  | some es => simp

/-! ### the projects of a group -/

theorem gather_some (rec : Dir → Option (List Dir)) (cs : List Child) (l : List Dir) (h : gather rec cs = some l) (p : Dir) :
    p ∈ l ↔ Child.project p ∈ cs ∨ ∃ d l', Child.group d ∈ cs ∧ rec d = some l' ∧ p ∈ l' := by
  induction cs generalizing l with
  | nil => simp [gather] at h; subst h; simp
  | cons c cs ih =>
    cases c with
    | project d =>
      simp only [gather] at h
      cases hr : gather rec cs with
      | none => simp [hr] at h
      | some l1 =>
        simp [hr] at h; subst h
        simp [ih l1 hr, or_assoc]
    | group d =>
      simp only [gather] at h
      cases hd : rec d with
      | none => simp [hd] at h
      | some l0 =>
        cases hr : gather rec cs with
        | none => simp [hd, hr] at h
        | some l1 =>
          simp [hd, hr] at h; subst h
          simp only [List.mem_append, ih l1 hr, List.mem_cons, reduceCtorEq, false_or, Child.group.injEq]
          constructor
          · rintro (h | h | ⟨d', l', h1, h2⟩)
            · exact Or.inr ⟨d, l0, Or.inl rfl, hd, h⟩
            · exact Or.inl h
            · exact Or.inr ⟨d', l', Or.inr h1, h2⟩
          · rintro (h | ⟨d', l', rfl | h1, h2, h3⟩)
            · exact Or.inr (Or.inl h)
            · rw [hd] at h2; simp at h2; subst h2; exact Or.inl h3
            · exact Or.inr (Or.inr ⟨d', l', h1, h2, h3⟩)

theorem gather_defined (rec : Dir → Option (List Dir)) (cs : List Child) (l : List Dir) (h : gather rec cs = some l) (d : Dir)
    (hd : Child.group d ∈ cs) : ∃ l', rec d = some l' := by
  induction cs generalizing l with
  | nil => simp at hd
  | cons c cs ih =>
    cases c with
    | project e =>
      simp only [gather] at h
      cases hr : gather rec cs with
      | none => simp [hr] at h
      | some l1 => exact ih l1 hr (by simpa using hd)
    | group e =>
      simp only [gather] at h
      cases he : rec e with
      | none => simp [he] at h
      | some l0 =>
        cases hr : gather rec cs with
        | none => simp [he, hr] at h
        | some l1 =>
          rcases List.mem_cons.1 hd with h' | h'
          · simp at h'; subst h'; exact ⟨l0, he⟩
          · exact ih l1 hr h'

theorem gather_total (rec : Dir → Option (List Dir)) (cs : List Child) (h : ∀ d, Child.group d ∈ cs → ∃ l, rec d = some l) :
    ∃ l, gather rec cs = some l := by
  induction cs with
  | nil => exact ⟨[], rfl⟩
  | cons c cs ih =>
    obtain ⟨l, hl⟩ := ih (fun d hd => h d (List.mem_cons_of_mem _ hd))
    cases c with
    | project d => exact ⟨d :: l, by simp [gather, hl]⟩
    | group d =>
      obtain ⟨l0, h0⟩ := h d (by simp)
      exact ⟨l0 ++ l, by simp [gather, h0, hl]⟩

theorem mem_children (t : Tree) (g p : Dir) :
    (Child.project p ∈ t.children g ↔ Entry t g p ∧ ∃ n, t.project p = some n) ∧
    (Child.group p ∈ t.children g ↔ Entry t g p ∧ t.project p = none) := by
  simp only [Tree.children, List.mem_map, mem_listed, Tree.child]
  constructor
  · constructor
    · rintro ⟨d, h1, h2⟩
      split at h2
      · rename_i hs
        simp at h2; subst h2
        exact ⟨h1, Option.isSome_iff_exists.1 hs⟩
      · simp at h2
    · rintro ⟨h1, n, hn⟩
      exact ⟨p, h1, by simp [hn]⟩
  · constructor
    · rintro ⟨d, h1, h2⟩
      split at h2
      · simp at h2
      · rename_i hs
        simp at h2; subst h2
        exact ⟨h1, by simpa using hs⟩
    · rintro ⟨h1, hn⟩
      exact ⟨p, h1, by simp [hn]⟩

/-- C65: whenever the projects of a group can be computed, they are exactly the projects that belong to it. -/
theorem group_projects (t : Tree) (n : Nat) (g : Dir) (l : List Dir) (h : t.projects n g = some l) (p : Dir) :
    p ∈ l ↔ BelongsTo t p g := by
  induction n generalizing g l with
  | zero => simp [Tree.projects] at h
  | succ n ih =>
    simp only [Tree.projects] at h
    rw [gather_some _ _ _ h p, (mem_children t g p).1]
    constructor
    · rintro (⟨h1, m, h2⟩ | ⟨d, l', h1, h2, h3⟩)
      · exact .listed h1 h2
      · have := (mem_children t g d).2.1 h1
        exact .nested this.1 this.2 ((ih d l' h2).1 h3)
    · intro hb
      cases hb with
      | listed h1 h2 => exact Or.inl ⟨h1, _, h2⟩
      | nested h1 h2 h3 =>
        rename_i d
        have hm := (mem_children t g d).2.2 ⟨h1, h2⟩
        obtain ⟨l', hl'⟩ := gather_defined _ _ _ h d hm
        exact Or.inr ⟨d, l', hm, hl', (ih d l' hl').2 h3⟩

/-- C65: they can be computed if the groups are nested without cycles: every listed group has a smaller rank. -/
theorem group_projects_exist (t : Tree) (rank : Dir → Nat)
    (hr : ∀ g h, Entry t g h → t.project h = none → rank h < rank g) (g : Dir) : ∃ l, t.projects (rank g + 1) g = some l := by
  suffices ∀ n g, rank g < n → ∃ l, t.projects n g = some l from this _ g (by omega)
  intro n
  induction n with
  | zero => intro g h; omega
  | succ n ih =>
    intro g h
    apply gather_total
    intro d hd
    have := (mem_children t g d).2.1 hd
    exact ih d (by have := hr g d this.1 this.2; omega)

/-- C65 fails for a group that lists itself, directly: the stack overflows however deep it may get. -/
theorem group_cycle_violated : ∃ t g, ∀ n, Tree.projects t n g = none := by
  refine ⟨⟨fun _ => none, fun d => if d = [] then some [['.']] else none, fun d _ => d⟩, [], ?_⟩
  intro n
  induction n with
  | zero => rfl
  | succ n ih =>
    simp only [Tree.projects]
    simp [Tree.children, Tree.listed, Tree.child, gather, ih]

/-- `/` lists the project `/a` and the group `/g`, which lists the project `/g/b` and the missing directory `/g/x`. -/
private def exTree : Tree where
  project := fun d => if d = [['a']] then some ['a'] else if d = [['g'], ['b']] then some ['b'] else none
  group := fun d => if d = [] then some [['a'], ['g']] else if d = [['g']] then some [['b'], ['x']] else none
  resolve := fun d e => d ++ [e]

example : exTree.projects 4 [] = some [[['a']], [['g'], ['b']]] ∧
    exTree.findGroup [['g'], ['b']] = some [['g']] ∧ exTree.findGroup [['g']] = some [] ∧
    exTree.findGroup [['g'], ['c']] = none := by decide

example : ∃ rank : Dir → Nat, ∀ g h, Entry exTree g h → exTree.project h = none → rank h < rank g := by
  refine ⟨fun d => if d = [] then 2 else if d = [['g']] then 1 else 0, ?_⟩
  rintro g h ⟨es, e, h1, h2, rfl⟩ _
  by_cases hg : g = []
  · subst hg
    simp [exTree] at h1; subst h1
    simp at h2
    rcases h2 with rfl | rfl <;> simp [exTree]
  · by_cases hg' : g = [['g']]
    · subst hg'
      simp [exTree] at h1; subst h1
      simp [exTree]
    · simp [exTree, hg, hg'] at h1

/-- C65 fails for missing directories: a listed directory without any configuration is a child, taken for a group. -/
theorem group_missing_violated : Child.group [['g'], ['x']] ∈ exTree.children [['g']] ∧
    exTree.group [['g'], ['x']] = none ∧ exTree.project [['g'], ['x']] = none := by decide

/-! ### the group of a project -/

theorem mem_parents (a d : Dir) : a ∈ parents d ↔ Above a d := by
  simp only [parents, List.mem_map, List.mem_reverse, List.mem_range, Above]
  constructor
  · rintro ⟨n, hn, rfl⟩
    exact ⟨d.drop n, by simp [List.drop_eq_nil_iff]; omega, (List.take_append_drop n d).symm⟩
  · rintro ⟨r, hr, rfl⟩
    refine ⟨a.length, ?_, by simp⟩
    have : 0 < r.length := List.length_pos_iff.2 hr
    simp; omega

theorem lists_iff (t : Tree) (d p : Dir) : t.lists d p = true ↔ Entry t d p := by
  simp only [Tree.lists, Entry]
  cases h : t.group d with
  | none => simp
  | some es => simp

theorem above_total (a b d : Dir) (ha : Above a d) (hb : Above b d) (h : a.length < b.length) : Above a b := by
  obtain ⟨r, _, rfl⟩ := ha
  obtain ⟨s, _, e⟩ := hb
  have h1 : a <+: b := by
    have p1 : a <+: a ++ r := ⟨r, rfl⟩
    have p2 : b <+: a ++ r := ⟨s, e.symm⟩
    exact List.prefix_of_prefix_length_le p1 p2 (by omega)
  obtain ⟨u, rfl⟩ := h1
  exact ⟨u, by rintro rfl; simp at h, rfl⟩

theorem parents_cons_lengths (d : Dir) : (parents d).Pairwise (fun a b => b.length < a.length) := by
  unfold parents
  rw [List.pairwise_map, List.pairwise_reverse]
  have : (List.range d.length).Pairwise (fun a b => a < b ∧ b < d.length) := by
    have h1 : (List.range d.length).Pairwise (· < ·) := List.pairwise_lt_range
    apply List.Pairwise.imp_of_mem _ h1
    intro a b _ hb hab
    exact ⟨hab, List.mem_range.1 hb⟩
  apply this.imp
  rintro a b ⟨h1, h2⟩
  simp; omega

theorem find_nearest {l : List Dir} (f : Dir → Bool) (hp : l.Pairwise (fun a b => b.length < a.length)) (g : Dir) :
    l.find? f = some g ↔ g ∈ l ∧ f g = true ∧ ∀ h, h ∈ l → f h = true → h = g ∨ h.length < g.length := by
  induction l with
  | nil => simp
  | cons x xs ih =>
    rw [List.pairwise_cons] at hp
    cases hx : f x with
    | true =>
      simp only [List.find?_cons, hx, Option.some.injEq]
      constructor
      · rintro rfl
        exact ⟨by simp, hx, fun h hh hf => by
          rcases List.mem_cons.1 hh with h' | h'
          · exact Or.inl h'
          · exact Or.inr (hp.1 h h')⟩
      · rintro ⟨h1, h2, h3⟩
        rcases List.mem_cons.1 h1 with h' | h'
        · exact h'.symm
        · rcases h3 x (by simp) hx with h4 | h4
          · exact h4
          · have := hp.1 g h'; omega
    | false =>
      simp only [List.find?_cons, hx]
      rw [ih hp.2]
      constructor
      · rintro ⟨h1, h2, h3⟩
        refine ⟨List.mem_cons_of_mem _ h1, h2, fun h hh hf => ?_⟩
        rcases List.mem_cons.1 hh with h' | h'
        · subst h'; rw [hx] at hf; simp at hf
        · exact h3 h h' hf
      · rintro ⟨h1, h2, h3⟩
        refine ⟨?_, h2, fun h hh hf => h3 h (List.mem_cons_of_mem _ hh) hf⟩
        rcases List.mem_cons.1 h1 with h' | h'
        · subst h'; rw [hx] at h2; simp at h2
        · exact h'

/-- C65: the group found for a directory is the nearest one above that lists it. -/
theorem group_of (t : Tree) (d g : Dir) : t.findGroup d = some g ↔ NearestGroup t d g := by
  unfold Tree.findGroup
  rw [find_nearest _ (parents_cons_lengths d), mem_parents, lists_iff]
  constructor
  · rintro ⟨h1, h2, h3⟩
    refine ⟨h1, h2, fun h ha he => ?_⟩
    rcases h3 h ((mem_parents h d).2 ha) ((lists_iff t h d).2 he) with h' | h'
    · exact Or.inl h'
    · exact Or.inr (above_total h g d ha h1 h')
  · rintro ⟨h1, h2, h3⟩
    refine ⟨h1, h2, fun h hm hf => ?_⟩
    rcases h3 h ((mem_parents h d).1 hm) ((lists_iff t h d).1 hf) with h' | ⟨r, hr, rfl⟩
    · exact Or.inl h'
    · right
      have : 0 < r.length := List.length_pos_iff.2 hr
      simp; omega

/-- C65: no group is found iff none above lists the directory. -/
theorem group_of_none (t : Tree) (d : Dir) : t.findGroup d = none ↔ ∀ g, Above g d → ¬ Entry t g d := by
  simp only [Tree.findGroup, List.find?_eq_none, mem_parents, lists_iff]

/-- C65: the project of a group finds its way back: if a directory above it lists it and no nearer one does, that is its group,
and it is among the children of this group. -/
theorem group_and_back (t : Tree) (d g : Dir) (n : Text) (hp : t.project d = some n) (h : NearestGroup t d g) :
    t.findGroup d = some g ∧ Child.project d ∈ t.children g :=
  ⟨(group_of t d g).2 h, (mem_children t g d).1.2 ⟨h.2.1, n, hp⟩⟩

example : NearestGroup exTree [['g'], ['b']] [['g']] := (group_of _ _ _).1 (by decide)

/-- C65 fails for the root: no group has one, although `/` is the topmost group above `/g` in the example. -/
theorem group_root_violated (t : Tree) (g : Dir) : t.root g = none := by
  suffices ∀ n g, t.rootFrom n g = none from this _ g
  intro n
  induction n with
  | zero => intro g; rfl
  | succ n ih =>
    intro g
    simp only [Tree.rootFrom]
    cases t.findGroup g with
    | none => rfl
    | some p => exact ih p

/-! ### changing a group -/

/-- C65: adding a project to a group that has not been looked into lists it, after all that were listed. -/
theorem group_add (t : Tree) (g : GroupObj) (path : Text) (h : g.cached = none) :
    ((g.add path).children t).1 = (g.children t).1 ++ [t.child (t.resolve g.dir path)] := by
  simp [GroupObj.children, GroupObj.add, h]

/-- C65 fails if the children have been asked for before: the new project is not among them. -/
theorem group_add_violated (t : Tree) (g : GroupObj) (path : Text) :
    (((g.children t).2.add path).children t).1 = (g.children t).1 := by
  cases h : g.cached <;> simp [GroupObj.children, GroupObj.add, h]

/-- C65: removing a path removes exactly the entries for this directory; the others keep their order and their text. -/
theorem group_remove (t : Tree) (cwd : Dir) (g : GroupObj) (path : Text) :
    (g.remove t cwd path).entries = g.entries.filter (fun e => decide (t.resolve g.dir e ≠ t.resolve cwd path)) ∧
    (g.remove t cwd path).entries.map (t.resolve g.dir) =
      (g.entries.map (t.resolve g.dir)).filter (fun d => decide (d ≠ t.resolve cwd path)) := by
  refine ⟨rfl, ?_⟩
  simp only [GroupObj.remove, GroupObj.removeDir, List.filter_map]
  rfl

/-- C65: adding a directory that was not listed and removing it gives the old list, if the path means the same directory at both
places. -/
theorem group_add_remove (t : Tree) (cwd : Dir) (g : GroupObj) (path : Text)
    (hc : t.resolve cwd path = t.resolve g.dir path) (hn : t.resolve g.dir path ∉ g.entries.map (t.resolve g.dir)) :
    ((g.add path).remove t cwd path).entries = g.entries := by
  simp only [GroupObj.add, GroupObj.remove, GroupObj.removeDir, hc, List.filter_append]
  have : g.entries.filter (fun e => decide (t.resolve g.dir e ≠ t.resolve g.dir path)) = g.entries := by
    rw [List.filter_eq_self]
    intro e he
    simp only [decide_eq_true_eq]
    intro e'
    exact hn (List.mem_map.2 ⟨e, he, e'⟩)
  rw [this]
  simp

/-- C65 fails for relative paths: the entry that was added is not removed if the working directory is another one. -/
theorem group_remove_relative_violated :
    ∃ t cwd g path, ((GroupObj.add g path).remove t cwd path).entries = [path] ∧ g.entries = [] :=
  ⟨exTree, [['h']], ⟨[], [], none⟩, ['p'], by decide, rfl⟩

theorem singleNamed_projects (t : Tree) (name : Text) (ds : List Dir) (found : Option Dir) :
    singleNamed t name found (ds.map Child.project) =
      match found, ds.filter (fun d => decide (t.project d = some name)) with
      | none, [d] => .ok d
      | some d, [] => .ok d
      | _, _ => .error .value := by
  induction ds generalizing found with
  | nil => cases found <;> rfl
  | cons d ds ih =>
    simp only [List.map_cons]
    by_cases h : t.project d = some name
    · cases found with
      | none =>
        simp only [singleNamed, h, if_true, ih, List.filter_cons, decide_true]
        cases ds.filter (fun d => decide (t.project d = some name)) <;> rfl
      | some x => simp [singleNamed, h]
    · cases found <;> simp [singleNamed, h, ih]

/-- C65: in a group of projects only, removing by name removes the entries of the one project of that name, and fails if none or
several entries are of a project of that name. -/
theorem group_remove_named_partial (t : Tree) (g : GroupObj) (name : Text) (hc : g.cached = none)
    (hp : ∀ e, e ∈ g.entries → ∃ n, t.project (t.resolve g.dir e) = some n) :
    match (g.entries.map (t.resolve g.dir)).filter (fun d => decide (t.project d = some name)) with
    | [d] => ∃ g', g.removeNamed t name = .ok g' ∧ g'.entries = g.entries.filter (fun e => decide (t.resolve g.dir e ≠ d))
    | _ => g.removeNamed t name = .error .value := by
  have e : (g.children t).1 = (g.entries.map (t.resolve g.dir)).map Child.project := by
    simp only [GroupObj.children, hc]
    apply List.map_congr_left
    intro d hd
    obtain ⟨x, hx, rfl⟩ := List.mem_map.1 hd
    obtain ⟨n, hn⟩ := hp x hx
    simp [Tree.child, hn]
  have e2 : (g.children t).2.dir = g.dir ∧ (g.children t).2.entries = g.entries := by
    simp [GroupObj.children, hc]
  have h1 := singleNamed_projects t name (g.entries.map (t.resolve g.dir)) none
  rw [← e] at h1
  simp only [GroupObj.removeNamed, h1]
  generalize (g.entries.map (t.resolve g.dir)).filter (fun d => decide (t.project d = some name)) = F
  match F with
  | [] => rfl
  | [d] => exact ⟨_, rfl, by simp [GroupObj.removeDir, e2]⟩
  | _ :: _ :: _ => rfl

example : (GroupObj.removeNamed exTree ⟨[], [['a']], none⟩ ['a']).map (·.entries) = .ok [] := rfl

/-- C65 fails for groups with a group in them: no project can be removed by its name. -/
theorem group_remove_named_violated :
    (GroupObj.removeNamed exTree ⟨[], [['a'], ['g']], none⟩ ['a']).map (·.entries) = .error .attribute := rfl

end Projects
end Pkm
