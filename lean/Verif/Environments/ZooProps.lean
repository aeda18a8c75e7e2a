import Verif.Environments.Zoo
import Verif.Environments.BuilderProps
import Verif.Cli.TemplatesProps
/-
C82: a directory of environments.
-/
set_option linter.unusedVariables false
set_option linter.unusedSimpArgs false
namespace Pkm

namespace Spec
open EnvBuild Zoo

/-- A name for an environment: one component of a path, and none of the two names that the zoo itself uses. -/
def EnvName (n : Text) : Prop := OneName n ∧ n ≠ t!".zoo" ∧ n ≠ t!"env-zoo.toml"

/-- The path is a directory, and so is all above it. -/
def RealDir (f : Disk) (z : EnvBuild.Path) : Prop := ∀ q, q ≠ [] → q <+: z → f.get q = some .dir

/-- A directory with nothing in it. -/
def EmptyDir (f : Disk) (z : EnvBuild.Path) : Prop := z ≠ [] ∧ RealDir f z ∧ ∀ r, r ≠ [] → f.get (z ++ r) = none

/-- The names used are names of environments, and the interpreters are there before (and are none of Windows). -/
def SaneOp (f : Disk) : Op → Prop
  | .create n i => EnvName n ∧ ∀ j, i = some j → j.windows = false ∧ ∃ q, walk f 39 j.path = some q
  | .delete n => EnvName n
  | .exports n _ => EnvName n
  | .add n r _ => EnvName n ∧ r ≠ []

/-- The environments that there have to be: those that were made and not deleted since. -/
def envsAfter : List Text → List Op → List Text
  | s, [] => s
  | s, .create n (some _) :: os => envsAfter (if n ∈ s then s else n :: s) os
  | s, .delete n :: os => envsAfter (s.filter (fun m => m ≠ n)) os
  | s, _ :: os => envsAfter s os

/-- The environment that is worked with. -/
def envOf : Op → Text
  | .create n _ => n
  | .delete n => n
  | .exports n _ => n
  | .add n _ _ => n

/-- The operation does not export a script under the name `x`. -/
def NotExporting (x : Text) : Op → Prop
  | .exports _ s => s ≠ x ∧ s ++ t!".exe" ≠ x
  | _ => True

end Spec

namespace Zoo
open Spec EnvBuild

/-! ### disks -/

theorem pathOf_one (z : Path) (n : Text) (h : OneName n) : pathOf z n = z ++ [n] := Templates.resolve_one z n h

theorem rmtree_get (f : Disk) (p q : Path) :
    Dict.get (f.filter (fun e => !p.isPrefixOf e.1)) q = if p <+: q then none else f.get q := by
  rw [Files.get_filter_key (fun k => !p.isPrefixOf k)]
  by_cases h : p <+: q
  · simp [h, List.isPrefixOf_iff_prefix.2 h]
  · have : p.isPrefixOf q = false := by
      cases e : p.isPrefixOf q with
      | false => rfl
      | true => exact absurd (List.isPrefixOf_iff_prefix.1 e) h
    simp [h, this]

theorem mem_names (f : Disk) (z : Path) (n : Text) : n ∈ names f z ↔ f.get (z ++ [n]) ≠ none := by
  rw [Ne, Dict.get_none_iff, Classical.not_not]
  simp only [names, List.mem_filterMap, Dict.keys, List.mem_map]
  constructor
  · rintro ⟨e, he, h⟩
    refine ⟨e, he, ?_⟩
    split at h
    · simp at h
    · rename_i hne
      split at h
      · rename_i hz
        have hne : e.1 ≠ [] := by simpa using hne
        rw [List.getLast?_eq_some_getLast hne, Option.some.injEq] at h
        rw [← hz, ← h, List.dropLast_concat_getLast]
      · simp at h
  · rintro ⟨e, he, h⟩
    refine ⟨e, he, ?_⟩
    rw [h]
    simp

theorem mem_list (f : Disk) (z : Path) (n : Text) : n ∈ list f z ↔ f.get (z ++ [n]) ≠ none ∧ isVenv f (z ++ [n]) = true := by
  rw [list, List.mem_filter, mem_names]

theorem walkWith_prefix (f : Disk) (next : Path → Option Path)
    (hn : ∀ a b : Path, (next (a ++ b)).isSome = true → (next a).isSome = true) (b : Path) :
    ∀ a cur, (walkWith f next cur (a ++ b)).isSome = true → (walkWith f next cur a).isSome = true := by
  intro a
  induction a with
  | nil => intro cur _; simp [walkWith]
  | cons x xs ih =>
    intro cur h
    simp only [List.cons_append, walkWith] at h ⊢
    split at h
    · simp at h
    · exact ih _ h
    · split at h
      · rename_i hb
        have : xs = [] := by
          have := List.isEmpty_iff.mp hb
          exact (List.append_eq_nil_iff.mp this).1
        simp [this]
      · simp at h
    · rename_i to hg
      rw [← List.append_assoc] at h
      exact hn _ _ h

theorem walk_prefix (f : Disk) (n : Nat) : ∀ a b : Path, (walk f n (a ++ b)).isSome = true → (walk f n a).isSome = true := by
  induction n with
  | zero => intro a b h; exact walkWith_prefix f _ (by simp) b a [] h
  | succ n ih => intro a b h; exact walkWith_prefix f _ ih b a [] h

theorem venv_present (f : Disk) (d : Path) (h : isVenv f d = true) : present f d = true := by
  simp only [isVenv, Bool.and_eq_true] at h
  exact walk_prefix f 40 d _ h.1

/-! ### one operation -/

/-- C82: the environments that are listed are those that can be loaded. -/
theorem list_load (f : Disk) (z : Path) (n : Text) (hz : RealDir f z) (hn : OneName n) :
    (n ∈ list f z ↔ load f z n = .ok (z ++ [n])) ∧
    (load f z n = .error .noSuchElement ↔ present f (z ++ [n]) = false) := by
  rw [mem_list]
  simp only [load, pathOf_one z n hn]
  cases hp : present f (z ++ [n]) with
  | false =>
    have hv : isVenv f (z ++ [n]) = false := by
      cases h : isVenv f (z ++ [n]) with
      | false => rfl
      | true => rw [venv_present f _ h] at hp; cases hp
    simp [hv]
  | true =>
    have hg : f.get (z ++ [n]) ≠ none := by
      intro k
      rw [not_present f z n hz k] at hp
      cases hp
    cases hv : isVenv f (z ++ [n]) with
    | false => simp
    | true => simp [hg]

/-- C82: deleting an environment removes everything in it and nothing else; it fails, changing nothing, if there is no
such directory. -/
theorem delete_only (f : Disk) (z : Path) (n : Text) (hn : OneName n) :
    ((delete f z n).2 = true ↔ f.get (z ++ [n]) = some .dir) ∧
    ((delete f z n).2 = true → ∀ q, z ++ [n] <+: q → (delete f z n).1.get q = none) ∧
    ((delete f z n).2 = false → (delete f z n).1 = f) ∧
    (∀ q, ¬ z ++ [n] <+: q → (delete f z n).1.get q = f.get q) := by
  simp only [delete, pathOf_one z n hn, rmtree]
  split
  · rename_i h
    refine ⟨by simp [h], fun _ q hq => ?_, by simp, fun q hq => ?_⟩
    · rw [rmtree_get, if_pos hq]
    · rw [rmtree_get, if_neg hq]
  · rename_i h
    refine ⟨by simpa using h, by simp, by simp, fun q _ => rfl⟩

theorem copyFile_spec (f : Disk) (src dst : Path) :
    ((copyFile f src dst).2 = true → ∃ t, readFile f src = some t ∧ (copyFile f src dst).1 = f.put dst (.file t) ∧
      ((f.get dst = none ∧ f.get dst.dropLast = some .dir) ∨ ∃ u, f.get dst = some (.file u))) ∧
    ((copyFile f src dst).2 = false → (copyFile f src dst).1 = f) := by
  simp only [copyFile]
  split
  · simp
  · split
    · simp
    · rename_i t ht
      split
      · rename_i hd
        split
        · rename_i hb
          exact ⟨fun _ => ⟨t, ht, rfl, Or.inl ⟨hd, hb⟩⟩, by simp⟩
        · simp
      · rename_i u hd
        exact ⟨fun _ => ⟨t, ht, rfl, Or.inr ⟨u, hd⟩⟩, by simp⟩
      · simp

theorem scriptName_some (f : Disk) (d : Path) (s x : Text) (h : scriptName f d s = some x) :
    (x = s ∨ x = s ++ t!".exe") ∧ present f (d ++ [t!"bin", x]) = true := by
  simp only [scriptName] at h
  split at h
  · rename_i hp
    simp only [Option.some.injEq] at h; subst h; exact ⟨Or.inl rfl, hp⟩
  · split at h
    · rename_i hp
      simp only [Option.some.injEq] at h; subst h; exact ⟨Or.inr rfl, hp⟩
    · simp at h

/-- C82: exporting a script copies it — or the `.exe` of this name — and does nothing else; if it fails it does
nothing. -/
theorem export_copies (f : Disk) (z : Path) (n s : Text) (hn : OneName n) :
    ((exportScript f z n s).2 = false → (exportScript f z n s).1 = f) ∧
    ((exportScript f z n s).2 = true → ∃ x t, (x = s ∨ x = s ++ t!".exe") ∧
      readFile f (z ++ [n, t!"bin", x]) = some t ∧
      (exportScript f z n s).1.get (z ++ [t!".zoo", t!"bin", x]) = some (.file t) ∧
      ∀ q, q ≠ z ++ [t!".zoo", t!"bin", x] → (exportScript f z n s).1.get q = f.get q) := by
  simp only [exportScript]
  split
  · simp
  · rename_i d hd
    have hd' : d = z ++ [n] := by
      simp only [load, pathOf_one z n hn] at hd
      split at hd
      · simp at hd
      · split at hd
        · simp at hd
        · simp only [Except.ok.injEq] at hd; exact hd.symm
    subst hd'
    split
    · simp
    · rename_i x hx
      obtain ⟨hxs, -⟩ := scriptName_some f _ s x hx
      obtain ⟨h1, h2⟩ := copyFile_spec f (z ++ [n] ++ [t!"bin", x]) (binPath z ++ [x])
      refine ⟨h2, fun h => ?_⟩
      obtain ⟨t, ht, he, _⟩ := h1 h
      have e : binPath z ++ [x] = z ++ [t!".zoo", t!"bin", x] := by simp [binPath]
      refine ⟨x, t, hxs, by simpa using ht, ?_, ?_⟩
      · rw [he, e, Dict.get_put, if_pos rfl]
      · intro q hq
        rw [he, e, Dict.get_put, if_neg (fun k => hq k.symm)]

/-! ### the history of a zoo -/

/-- What holds all the time in a zoo that was made on the disk `base` and has the environments `s`. -/
structure Inv (base : Disk) (z : Path) (s : List Text) (f : Disk) : Prop where
  clear : ∀ r, r ≠ [] → base.get (z ++ r) = none
  ext : Ext base f
  tree : DiskTree f
  dirs : RealDir f z
  toml : ∃ t, f.get (z ++ [t!"env-zoo.toml"]) = some (.file t)
  zoo : f.get (z ++ [t!".zoo"]) = some .dir
  noCfg : f.get (z ++ [t!".zoo", t!"pyvenv.cfg"]) = none
  alive : ∀ n ∈ s, f.get (z ++ [n]) = some .dir ∧ (∃ t, f.get (z ++ [n, t!"pyvenv.cfg"]) = some (.file t)) ∧
    f.get (z ++ [n, t!"bin"]) = some .dir ∧
    ∃ i q, f.get (z ++ [n, t!"bin", t!"python"]) = some (.link i) ∧ walk base 39 i = some q
  dead : ∀ n, n ∉ s → n ≠ t!".zoo" → n ≠ t!"env-zoo.toml" → f.get (z ++ [n]) = none
  plain : ∀ n ∈ s, EnvName n

theorem realDir_snoc (f : Disk) (z : Path) (x : Text) (h : RealDir f z) (hx : f.get (z ++ [x]) = some .dir) :
    RealDir f (z ++ [x]) := by
  intro q hq hp
  rcases prefix_append_cases q z _ hp with k | ⟨r, hr, hrx, rfl⟩
  · exact h q hq k
  · rcases (prefix_one r _).mp hrx with rfl | rfl
    · exact absurd rfl hr
    · exact hx

theorem alive_venv (base : Disk) (z : Path) (s : List Text) (f : Disk) (h : Inv base z s f) (n : Text) (hn : n ∈ s) :
    isVenv f (z ++ [n]) = true := by
  obtain ⟨h1, ⟨t, h2⟩, h3, i, q, h4, h5⟩ := h.alive n hn
  have d1 := realDir_snoc f z n h.dirs h1
  have e2 : z ++ [n] ++ [t!"pyvenv.cfg"] = z ++ [n, t!"pyvenv.cfg"] := by simp
  have r1 := (readFile_at f (z ++ [n]) t!"pyvenv.cfg" t d1 (by rw [e2]; exact h2)).1
  have e3 : z ++ [n] ++ [t!"bin"] = z ++ [n, t!"bin"] := by simp
  have d2 := realDir_snoc f (z ++ [n]) t!"bin" d1 (by rw [e3]; exact h3)
  obtain ⟨next, _, k2, e⟩ := walk_dirs f 40 (z ++ [n] ++ [t!"bin"]) [t!"python"] d2
  have e4 : z ++ [n] ++ [t!"bin"] ++ [t!"python"] = z ++ [n, t!"bin", t!"python"] := by simp
  have hw : walk f 40 (z ++ [n] ++ [t!"bin", t!"python"]) = some q := by
    have e5 : z ++ [n] ++ [t!"bin", t!"python"] = z ++ [n] ++ [t!"bin"] ++ [t!"python"] := by simp
    rw [e5, e, k2 39 rfl]
    simp only [walkWith]
    rw [e4, h4]
    simp only [List.append_nil]
    exact walk_ext base f h.ext 39 _ _ h5
  rw [isVenv, r1]
  simp only [present, hw]
  rfl

theorem inv_list (base : Disk) (z : Path) (s : List Text) (f : Disk) (h : Inv base z s f) (n : Text) :
    n ∈ list f z ↔ n ∈ s := by
  rw [mem_list]
  constructor
  · rintro ⟨h1, h2⟩
    false_or_by_contra
    rename_i hs
    by_cases hz : n = t!".zoo"
    · subst hz
      have := not_venv f (z ++ [t!".zoo"]) (.inl ⟨realDir_snoc f z _ h.dirs h.zoo, by simpa using h.noCfg⟩)
      rw [this] at h2; cases h2
    · by_cases ht : n = t!"env-zoo.toml"
      · subst ht
        obtain ⟨t, ht⟩ := h.toml
        obtain ⟨next, _, _, e⟩ := walk_dirs f 40 z [t!"env-zoo.toml", t!"pyvenv.cfg"] h.dirs
        have : present f (z ++ [t!"env-zoo.toml"] ++ [t!"pyvenv.cfg"]) = false := by
          have e2 : z ++ [t!"env-zoo.toml"] ++ [t!"pyvenv.cfg"] = z ++ [t!"env-zoo.toml", t!"pyvenv.cfg"] := by simp
          rw [present, e2, e]
          simp [walkWith, ht]
        rw [isVenv, this] at h2
        simp at h2
      · exact h1 (h.dead n hs hz ht)
  · intro hs
    refine ⟨?_, alive_venv base z s f h n hs⟩
    rw [(h.alive n hs).1]; simp

theorem venvFiles_tree (d : Path) (i : Interp) (r : Path) (x : Text) (n : Node) (h : (venvFiles d i).get (r ++ [x]) = some n) :
    (venvFiles d i).get r = some .dir := by
  have hm := Dict.get_mem _ _ _ h
  have key : ∀ q : Path, r ++ [x] = q → r = q.dropLast := by intro q e; rw [← e]; simp
  simp only [venvFiles, List.mem_append, List.mem_cons, List.not_mem_nil, or_false, Prod.mk.injEq] at hm
  rcases hm with ((⟨e, _⟩ | ⟨e, _⟩ | ⟨e, _⟩ | ⟨e, _⟩ | ⟨e, _⟩ | ⟨e, _⟩ | ⟨e, _⟩) | hm) | ⟨e, _⟩ | ⟨e, _⟩ | ⟨e, _⟩
  · simp at e
  · obtain rfl := key _ e; simp [venvFiles, Dict.get]
  · obtain rfl := key _ e; simp [venvFiles, Dict.get]
  · obtain rfl := key _ e; simp [venvFiles, Dict.get]
  · obtain rfl := key _ e; simp [venvFiles, Dict.get]
  · obtain rfl := key _ e; simp [venvFiles, Dict.get]
  · obtain rfl := key _ e; simp [venvFiles, Dict.get]
  · split at hm
    · simp at hm
    · simp only [List.mem_cons, List.not_mem_nil, or_false, Prod.mk.injEq] at hm
      obtain rfl := key _ hm.1; simp [venvFiles, Dict.get]
  · obtain rfl := key _ e; simp [venvFiles, Dict.get]
  · obtain rfl := key _ e; simp [venvFiles, Dict.get]
  · obtain rfl := key _ e; simp [venvFiles, Dict.get]


theorem ne_sub (z : Path) (a b : Path) (h : a ≠ b) : z ++ a ≠ z ++ b := fun k => h (List.append_cancel_left k)

theorem not_below (z : Path) (n : Text) (a : Path) (h : a.head? ≠ some n) : ¬ z ++ [n] <+: z ++ a := by
  rw [List.prefix_append_right_inj]
  rintro ⟨r, k⟩
  rw [← k] at h
  exact h rfl

theorem inv_delete (base : Disk) (z : Path) (s : List Text) (f : Disk) (h : Inv base z s f) (n : Text) (hn : EnvName n) :
    (delete f z n).2 = decide (n ∈ s) ∧ Inv base z (s.filter (fun m => m ≠ n)) (delete f z n).1 := by
  obtain ⟨d1, d2, d3, d4⟩ := delete_only f z n hn.1
  by_cases hs : n ∈ s
  · have ht : (delete f z n).2 = true := d1.mpr (h.alive n hs).1
    refine ⟨by rw [ht]; simp [hs], ?_⟩
    have d2 := d2 ht
    have key : ∀ a, a.head? ≠ some n → (delete f z n).1.get (z ++ a) = f.get (z ++ a) := fun a ha => d4 _ (not_below z n a ha)
    have hne : ∀ m ∈ s.filter (fun m => m ≠ n), m ∈ s ∧ m ≠ n := by
      intro m hm
      simpa using List.mem_filter.mp hm
    refine ⟨h.clear, ?_, ?_, ?_, ?_, ?_, ?_, ?_, ?_, ?_⟩
    · intro p x hp
      rw [d4]
      · exact h.ext p x hp
      · rintro ⟨r, k⟩
        have := h.clear ([n] ++ r) (by simp)
        rw [← List.append_assoc, k, hp] at this
        cases this
    · intro p x y hp
      have hnb : ¬ z ++ [n] <+: p ++ [x] := by
        intro k
        rw [d2 _ k] at hp; cases hp
      have hnb' : ¬ z ++ [n] <+: p := fun k => hnb (k.trans (List.prefix_append _ _))
      rw [d4 _ hnb] at hp
      rw [d4 _ hnb']
      exact h.tree p x y hp
    · intro q hq hp
      rw [d4]
      · exact h.dirs q hq hp
      · intro k
        have := (k.trans hp).length_le
        simp at this
        omega
    · obtain ⟨t, ht⟩ := h.toml
      exact ⟨t, by rw [key _ (by simpa using fun k => hn.2.2 k.symm)]; exact ht⟩
    · rw [key _ (by simpa using fun k => hn.2.1 k.symm)]; exact h.zoo
    · rw [key _ (by simpa using fun k => hn.2.1 k.symm)]; exact h.noCfg
    · intro m hm
      obtain ⟨hm, hmn⟩ := hne m hm
      have hh : ∀ r : Path, (m :: r).head? ≠ some n := by intro r; simpa using hmn
      obtain ⟨a1, ⟨t, a2⟩, a3, i, q, a4, a5⟩ := h.alive m hm
      refine ⟨by rw [key _ (hh _)]; exact a1, ⟨t, by rw [key _ (hh _)]; exact a2⟩, by rw [key _ (hh _)]; exact a3, i, q,
        by rw [key _ (hh _)]; exact a4, a5⟩
    · intro m hm hz ht
      by_cases hmn : m = n
      · subst hmn; exact d2 _ (List.prefix_refl _)
      · rw [key _ (by simpa using hmn)]
        refine h.dead m (fun k => hm (List.mem_filter.mpr ⟨k, by simpa using hmn⟩)) hz ht
    · intro m hm
      exact h.plain m (hne m hm).1
  · have hg := h.dead n hs hn.2.1 hn.2.2
    have ht : (delete f z n).2 = false := by
      cases e : (delete f z n).2 with
      | false => rfl
      | true => have := d1.mp e; rw [hg] at this; cases this
    refine ⟨by rw [ht]; simp [hs], ?_⟩
    rw [d3 ht]
    have : s.filter (fun m => m ≠ n) = s := by
      rw [List.filter_eq_self]
      intro m hm
      simp only [decide_eq_true_eq]
      rintro rfl; exact hs hm
    rw [this]; exact h

theorem inv_create (base : Disk) (z : Path) (s : List Text) (f : Disk) (h : Inv base z s f) (n : Text) (hn : EnvName n)
    (i : Interp) (hw : i.windows = false) (q : Path) (hq : walk base 39 i.path = some q) :
    (create f z n (some i)).2 = decide (n ∉ s) ∧
    Inv base z (if n ∈ s then s else n :: s) (create f z n (some i)).1 := by
  have hp := pathOf_one z n hn.1
  by_cases hs : n ∈ s
  · have hpr : present f (z ++ [n]) = true := venv_present f _ (alive_venv base z s f h n hs)
    have : create f z n (some i) = (f, false) := by rw [create, hp, if_pos hpr]
    rw [this, if_pos hs]
    exact ⟨by simp [hs], h⟩
  · have hg := h.dead n hs hn.2.1 hn.2.2
    have hpr : present f (z ++ [n]) = false := not_present f z n h.dirs hg
    have hfree : FreePath f (z ++ [n]) := by
      refine ⟨by simp, hg, ?_⟩
      intro p hp1 hp2
      rcases prefix_append_cases p z _ hp2 with k | ⟨r, hr, hrx, rfl⟩
      · exact .inr (h.dirs p hp1 k)
      · rcases (prefix_one r _).mp hrx with rfl | rfl
        · exact absurd rfl hr
        · exact .inl hg
    have e : create f z n (some i) = EnvBuild.create f (z ++ [n]) (some i) := by
      rw [create, hp, if_neg (by rw [hpr]; simp)]
    rw [e, if_neg hs]
    obtain ⟨c1, c2⟩ := create_contents f (z ++ [n]) i h.tree hfree hw
    obtain ⟨k1, k2⟩ := create_keeps f (z ++ [n]) (some i)
    generalize EnvBuild.create f (z ++ [n]) (some i) = g at c1 c2 k1 k2 ⊢
    obtain ⟨g, b⟩ := g
    simp only at c1 c2 k1 k2 ⊢
    have out : ∀ p, p ≠ [] → ¬ z ++ [n] <+: p → g.get p = f.get p := by
      intro p hp0 hp
      false_or_by_contra
      rename_i hne
      rcases k2 p hne with k | ⟨k, k'⟩
      · exact hp k
      · rcases prefix_append_cases p z _ k with k | ⟨r, hr, hrx, rfl⟩
        · rw [h.dirs p hp0 k] at hne; exact hne k'
        · rcases (prefix_one r _).mp hrx with rfl | rfl
          · exact absurd rfl hr
          · exact hp (List.prefix_refl _)
    have key : ∀ x a, x ≠ n → g.get (z ++ x :: a) = f.get (z ++ x :: a) :=
      fun x a ha => out _ (by simp) (not_below z n (x :: a) (by simpa using ha))
    refine ⟨by rw [c1]; simp [hs], h.clear, ?_, ?_, ?_, ?_, ?_, ?_, ?_, ?_, ?_⟩
    · exact h.ext.trans k1
    · intro p x y hpx
      by_cases hb : z ++ [n] <+: p ++ [x]
      · obtain ⟨r, hr⟩ := hb
        by_cases hr0 : r = []
        · subst hr0
          rw [List.append_nil] at hr
          have : z = p := by
            have := congrArg List.dropLast hr
            simpa using this
          subst this
          by_cases hz : z = []
          · exact .inl hz
          · exact .inr (k1 _ _ (h.dirs z hz (List.prefix_refl _)))
        · have e1 : r = r.dropLast ++ [r.getLast hr0] := (List.dropLast_concat_getLast hr0).symm
          rw [e1, ← List.append_assoc] at hr
          have hpp : z ++ [n] ++ r.dropLast = p := by
            have := congrArg List.dropLast hr
            rwa [List.dropLast_concat, List.dropLast_concat] at this
          right
          rw [← hpp, c2]
          have hg' := hpx
          rw [← hr, List.append_assoc, c2] at hg'
          exact venvFiles_tree _ _ _ _ _ hg'
      · rw [out _ (by simp) hb] at hpx
        rcases h.tree p x y hpx with k | k
        · exact .inl k
        · exact .inr (k1 _ _ k)
    · intro p hp1 hp2; exact k1 _ _ (h.dirs p hp1 hp2)
    · obtain ⟨t, ht⟩ := h.toml; exact ⟨t, k1 _ _ ht⟩
    · exact k1 _ _ h.zoo
    · rw [key _ _ (fun k => hn.2.1 k.symm)]; exact h.noCfg
    · intro m hm
      rcases List.mem_cons.mp hm with rfl | hm
      · refine ⟨?_, ⟨venvConfig i, ?_⟩, ?_, i.path, q, ?_, hq⟩
        · have := c2 []; rw [List.append_nil] at this; rw [this]; simp [venvFiles, Dict.get]
        · have := c2 [t!"pyvenv.cfg"]; rw [List.append_assoc] at this; rw [show z ++ [m, t!"pyvenv.cfg"] = z ++ ([m] ++ [t!"pyvenv.cfg"]) by simp, this]; simp [venvFiles, Dict.get]
        · have := c2 [t!"bin"]; rw [List.append_assoc] at this; rw [show z ++ [m, t!"bin"] = z ++ ([m] ++ [t!"bin"]) by simp, this]; simp [venvFiles, Dict.get]
        · have := c2 [t!"bin", t!"python"]
          rw [List.append_assoc] at this
          rw [show z ++ [m, t!"bin", t!"python"] = z ++ ([m] ++ [t!"bin", t!"python"]) by simp, this]
          simp only [venvFiles]
          split <;> simp [Dict.get]
      · obtain ⟨a1, ⟨t, a2⟩, a3, j, q', a4, a5⟩ := h.alive m hm
        exact ⟨k1 _ _ a1, ⟨t, k1 _ _ a2⟩, k1 _ _ a3, j, q', k1 _ _ a4, a5⟩
    · intro m hm hz ht
      have : m ≠ n := fun k => hm (by rw [k]; exact List.mem_cons_self ..)
      rw [key _ _ this]
      exact h.dead m (fun k => hm (List.mem_cons_of_mem _ k)) hz ht
    · intro m hm
      rcases List.mem_cons.mp hm with rfl | hm
      · exact hn
      · exact h.plain m hm

theorem inv_put (base : Disk) (z : Path) (s : List Text) (f : Disk) (h : Inv base z s f) (a b : Text) (r : Path) (x : Node)
    (hc : a = t!".zoo" → b :: r ≠ [t!"pyvenv.cfg"])
    (hp : (f.get (z ++ a :: b :: r) = none ∧ f.get (z ++ a :: b :: r).dropLast = some .dir) ∨
      (a = t!".zoo" ∧ (∃ u, f.get (z ++ a :: b :: r) = some (.file u)) ∧ ∃ t, x = .file t)) :
    Inv base z s (f.put (z ++ a :: b :: r) x) := by
  have other : ∀ q, q ≠ z ++ a :: b :: r → (f.put (z ++ a :: b :: r) x).get q = f.get q := by
    intro q hq; rw [Dict.get_put, if_neg (fun k => hq k.symm)]
  have keep : ∀ q n, f.get q = some n → n = .dir ∨ (∀ l, q ≠ z ++ t!".zoo" :: l) → (f.put (z ++ a :: b :: r) x).get q = some n := by
    intro q n hq hk
    rw [other q, hq]
    rintro rfl
    rcases hp with ⟨h1, _⟩ | ⟨rfl, ⟨u, h1⟩, _⟩
    · rw [h1] at hq; cases hq
    · rcases hk with rfl | hk
      · rw [h1] at hq; cases hq
      · exact hk _ rfl
  have short : ∀ c, z ++ [c] ≠ z ++ a :: b :: r := fun c => ne_sub z _ _ (by simp)
  have sub : ∀ n ∈ s, ∀ l m, z ++ n :: l ≠ z ++ t!".zoo" :: m := by
    intro n hn l m
    refine ne_sub z _ _ ?_
    intro k
    simp only [List.cons.injEq] at k
    exact (h.plain n hn).2.1 k.1
  refine ⟨h.clear, ?_, ?_, ?_, ?_, ?_, ?_, ?_, ?_, h.plain⟩
  · intro q n hq
    rw [other q]
    · exact h.ext q n hq
    · rintro rfl
      rw [h.clear _ (by simp)] at hq; cases hq
  · intro q y n hq
    by_cases hqp : q ++ [y] = z ++ a :: b :: r
    · have hd : q = (z ++ a :: b :: r).dropLast := by rw [← hqp]; simp
      right
      have hne : q ≠ z ++ a :: b :: r := by
        rw [← hqp]; intro k
        have := congrArg List.length k
        simp at this
      rw [other q hne]
      rcases hp with ⟨_, h2⟩ | ⟨_, ⟨u, h1⟩, _⟩
      · rw [hd]; exact h2
      · rw [← hqp] at h1
        rcases h.tree q y _ h1 with k | k
        · exfalso
          subst k
          have := congrArg List.length hqp
          simp at this
          omega
        · exact k
    · rw [other _ hqp] at hq
      rcases h.tree q y n hq with k | k
      · exact .inl k
      · exact .inr (keep q _ k (.inl rfl))
  · intro q hq hqz
    exact keep q _ (h.dirs q hq hqz) (.inl rfl)
  · obtain ⟨t, ht⟩ := h.toml
    exact ⟨t, by rw [other _ (short _)]; exact ht⟩
  · rw [other _ (short _)]; exact h.zoo
  · rw [other]
    · exact h.noCfg
    · refine ne_sub z _ _ ?_
      intro k
      simp only [List.cons.injEq] at k
      exact hc k.1.symm (by rw [← k.2.1, ← k.2.2])
  · intro n hn
    obtain ⟨a1, ⟨t, a2⟩, a3, i, q, a4, a5⟩ := h.alive n hn
    exact ⟨keep _ _ a1 (.inl rfl), ⟨t, keep _ _ a2 (.inr (sub n hn _))⟩, keep _ _ a3 (.inl rfl), i, q,
      keep _ _ a4 (.inr (sub n hn _)), a5⟩
  · intro n hn h1 h2
    rw [other _ (short _)]; exact h.dead n hn h1 h2

theorem inv_export (base : Disk) (z : Path) (s : List Text) (f : Disk) (h : Inv base z s f) (n x : Text) (hn : OneName n) :
    Inv base z s (exportScript f z n x).1 := by
  simp only [exportScript]
  split
  · exact h
  · split
    · exact h
    · rename_i d _ _ y hy
      obtain ⟨h1, h2⟩ := copyFile_spec f (d ++ [t!"bin", y]) (binPath z ++ [y])
      cases e : (copyFile f (d ++ [t!"bin", y]) (binPath z ++ [y])).2 with
      | false => rw [h2 e]; exact h
      | true =>
        obtain ⟨t, _, k1, k2⟩ := h1 e
        have eb : binPath z ++ [y] = z ++ t!".zoo" :: t!"bin" :: [y] := by simp [binPath]
        rw [k1, eb]
        rw [eb] at k2
        refine inv_put base z s f h _ _ _ _ (by simp) ?_
        rcases k2 with k | k
        · exact .inl k
        · exact .inr ⟨rfl, k, t, rfl⟩

theorem inv_add (base : Disk) (z : Path) (s : List Text) (f : Disk) (h : Inv base z s f) (n : Text) (r : Path) (x : Node)
    (hn : EnvName n) (hr : r ≠ []) : Inv base z s (place f (pathOf z n ++ r) x).1 := by
  rw [pathOf_one z n hn.1]
  obtain ⟨b, r, rfl⟩ := List.exists_cons_of_ne_nil hr
  have e : z ++ [n] ++ b :: r = z ++ n :: b :: r := by simp
  rw [e]
  simp only [place]
  split
  · rename_i hc
    exact inv_put base z s f h n b r x (fun k => absurd k hn.2.1) (.inl hc)
  · exact h

theorem inv_run (base : Disk) (z : Path) (s : List Text) (f : Disk) (h : Inv base z s f) (o : Op) (ho : SaneOp base o) :
    Inv base z (envsAfter s [o]) (o.run z f).1 := by
  cases o with
  | create n i =>
    cases i with
    | none =>
      have : Zoo.create f z n none = (f, false) := by
        simp only [create, EnvBuild.create]
        split
        · rfl
        · rfl
      simp only [Op.run, this, envsAfter]
      exact h
    | some i =>
      obtain ⟨q, hq⟩ := (ho.2 i rfl).2
      exact (inv_create base z s f h n ho.1 i (ho.2 i rfl).1 q hq).2
  | delete n => exact (inv_delete base z s f h n ho).2
  | exports n x => exact inv_export base z s f h n x ho.1
  | add n r x => exact inv_add base z s f h n r x ho.1 ho.2

theorem envsAfter_cons (s : List Text) (o : Op) (os : List Op) : envsAfter s (o :: os) = envsAfter (envsAfter s [o]) os := by
  cases o with
  | create n i => cases i <;> rfl
  | delete n => rfl
  | exports n x => rfl
  | add n r x => rfl

theorem inv_runAll (base : Disk) (z : Path) (os : List Op) : ∀ (s : List Text) (f : Disk), Inv base z s f →
    (∀ o ∈ os, SaneOp base o) → Inv base z (envsAfter s os) (runAll z f os) := by
  induction os with
  | nil => intro s f h _; exact h
  | cons o os ih =>
    intro s f h ho
    rw [envsAfter_cons]
    exact ih _ _ (inv_run base z s f h o (ho o (List.mem_cons_self ..))) (fun o' h' => ho o' (List.mem_cons_of_mem _ h'))

theorem realDir_mkdirs (f : Disk) : ∀ (xs pre : Path), (∀ q, q ≠ [] → q <+: xs → f.get (pre ++ q) = some .dir) →
    mkdirs f pre xs = (f, true) := by
  intro xs
  induction xs with
  | nil => intro pre _; rfl
  | cons x xs ih =>
    intro pre h
    simp only [mkdirs]
    rw [h [x] (by simp) (by simp)]
    refine ih _ ?_
    intro q hq hp
    have := h (x :: q) (by simp) (List.cons_prefix_cons.mpr ⟨rfl, hp⟩)
    simpa using this

/-- Opening an empty directory as a zoo. -/
theorem inv_open (f : Disk) (z : Path) (cfg : Text) (ht : DiskTree f) (hz : EmptyDir f z) :
    (openZoo f z cfg).2 = true ∧ Inv f z [] (openZoo f z cfg).1 ∧
      (openZoo f z cfg).1.get (z ++ [t!".zoo", t!"bin"]) = some .dir := by
  obtain ⟨h0, hd, he⟩ := hz
  have hp : present f (z ++ [t!"env-zoo.toml"]) = false := not_present f z _ hd (he _ (by simp))
  have hopen : openZoo f z cfg = runSteps f [.mkdir z, .put (z ++ [t!"env-zoo.toml"]) (.file cfg),
      .mkdir (z ++ [t!".zoo", t!"bin"]), .mkdir (z ++ [t!".zoo", t!"shared"])] := by
    rw [openZoo, if_neg (by rw [hp]; simp)]
  have hin0 : In f z (Dict.get [([], Node.dir)]) := by
    refine ⟨hd, ?_⟩
    intro r
    by_cases hr : r = []
    · subst hr
      rw [List.append_nil, hd z h0 (List.prefix_refl _)]; rfl
    · rw [he r hr]
      simp only [Dict.get]
      rw [if_neg (fun k => hr k.symm)]
  have e0 : Step.run f (.mkdir z) = (f, true) := realDir_mkdirs f z [] (fun q hq hp => hd q hq hp)
  obtain ⟨g1, e1, h1⟩ := in_put f z _ t!"env-zoo.toml" (.file cfg) hin0 (by simp [Dict.get]) (by simp [Dict.get])
  obtain ⟨g2, e2, h2⟩ := in_mkdir g1 z _ [t!".zoo", t!"bin"] h1 h0 (by
    intro r hr hp
    rcases (prefix_two r _ _).mp hp with rfl | rfl | rfl
    · exact absurd rfl hr
    · left; simp [Dict.get]
    · left; simp [Dict.get])
  obtain ⟨g3, e3, h3⟩ := in_mkdir g2 z _ [t!".zoo", t!"shared"] h2 h0 (by
    intro r hr hp
    rcases (prefix_two r _ _).mp hp with rfl | rfl | rfl
    · exact absurd rfl hr
    · right; simp
    · left; simp [Dict.get])
  have hrun : openZoo f z cfg = (g3, true) := by
    rw [hopen, run_cons _ _ _ _ e0, run_cons _ _ _ _ e1, run_cons _ _ _ _ e2, run_cons _ _ _ _ e3]; rfl
  have hext : Ext f g3 := by
    have := steps_ext [.mkdir z, .put (z ++ [t!"env-zoo.toml"]) (.file cfg),
      .mkdir (z ++ [t!".zoo", t!"bin"]), .mkdir (z ++ [t!".zoo", t!"shared"])] f
    rw [← hopen, hrun] at this
    exact this
  have hnew : New z f g3 := by
    have := steps_new z [.mkdir z, .put (z ++ [t!"env-zoo.toml"]) (.file cfg),
      .mkdir (z ++ [t!".zoo", t!"bin"]), .mkdir (z ++ [t!".zoo", t!"shared"])] (by
        intro s hs
        simp only [List.mem_cons, List.not_mem_nil, or_false] at hs
        rcases hs with rfl | rfl | rfl | rfl
        · exact List.prefix_refl _
        · exact List.prefix_append _ _
        · exact List.prefix_append _ _
        · exact List.prefix_append _ _) f
    rw [← hopen, hrun] at this
    exact this
  rw [hrun]
  refine ⟨rfl, ⟨he, hext, ?_, h3.base, ⟨cfg, ?_⟩, ?_, ?_, by simp, ?_, by simp⟩, ?_⟩
  · intro p x n hpx
    by_cases hch : g3.get (p ++ [x]) = f.get (p ++ [x])
    · rw [hch] at hpx
      rcases ht p x n hpx with k | k
      · exact .inl k
      · exact .inr (hext _ _ k)
    · rcases hnew _ hch with k | ⟨k, _⟩
      · rcases prefix_append_cases z p [x] k with k | ⟨r, hr, hrx, k⟩
        · obtain ⟨r, rfl⟩ := k
          right
          rw [List.append_assoc, h3.rel] at hpx
          rw [h3.rel]
          have hsub : ∀ l : Path, r ++ [x] <+: l → r <+: l := fun l k => (List.prefix_append _ _).trans k
          by_cases c1 : r ++ [x] <+: [t!".zoo", t!"shared"]
          · rw [if_pos (hsub _ c1)]
          · rw [if_neg c1] at hpx
            by_cases c2 : r ++ [x] <+: [t!".zoo", t!"bin"]
            · rw [if_pos (hsub _ c2)]; split <;> rfl
            · rw [if_neg c2] at hpx
              have hr : r = [] := by
                have hm := Dict.get_mem _ _ _ hpx
                simp only [List.mem_append, List.mem_cons, List.not_mem_nil, or_false, Prod.mk.injEq] at hm
                rcases hm with ⟨k, _⟩ | ⟨k, _⟩
                · simp at k
                · have := congrArg List.length k
                  simp at this
                  exact this
              subst hr
              simp
        · rcases (prefix_one r _).mp hrx with rfl | rfl
          · exact absurd rfl hr
          · by_cases hp0 : p = []
            · exact .inl hp0
            · right
              refine h3.base p hp0 ?_
              rw [k]; exact List.prefix_append _ _
      · by_cases hp0 : p = []
        · exact .inl hp0
        · exact .inr (h3.base p hp0 ((List.prefix_append _ _).trans k))
  · rw [h3.rel]; simp [Dict.get, prefix_two]
  · rw [h3.rel]; simp [Dict.get, prefix_two]
  · rw [h3.rel]; simp [Dict.get, prefix_two]
  · intro n _ h1 h2
    rw [h3.rel]
    simp [Dict.get, prefix_two, h1]
    exact fun k => h2 k.symm
  · rw [h3.rel]; simp [Dict.get, prefix_two]

/-! ### C82 -/

/-- C82: in a zoo made in an empty directory there are, after any history, exactly the environments that were made and not
deleted since. -/
theorem zoo_history (f : Disk) (z : Path) (cfg : Text) (os : List Op) (ht : DiskTree f) (hz : EmptyDir f z)
    (ho : ∀ o ∈ os, SaneOp f o) (n : Text) :
    n ∈ list (runAll z (openZoo f z cfg).1 os) z ↔ n ∈ envsAfter [] os :=
  inv_list f z _ _ (inv_runAll f z os [] _ (inv_open f z cfg ht hz).2.1 ho) n

/-- C82: after any history an environment can be made iff there is none of this name, and deleted iff there is one. -/
theorem zoo_outcome (f : Disk) (z : Path) (cfg : Text) (os : List Op) (ht : DiskTree f) (hz : EmptyDir f z)
    (ho : ∀ o ∈ os, SaneOp f o) (n : Text) (hn : EnvName n) :
    (∀ i q, i.windows = false → walk f 39 i.path = some q →
      ((create (runAll z (openZoo f z cfg).1 os) z n (some i)).2 = true ↔ n ∉ envsAfter [] os)) ∧
    ((delete (runAll z (openZoo f z cfg).1 os) z n).2 = true ↔ n ∈ envsAfter [] os) := by
  have h := inv_runAll f z os [] _ (inv_open f z cfg ht hz).2.1 ho
  refine ⟨fun i q hw hq => ?_, ?_⟩
  · rw [(inv_create f z _ _ h n hn i hw q hq).1]; simp
  · rw [(inv_delete f z _ _ h n hn).1]; simp

/-- C82: opening a zoo again changes nothing. -/
theorem open_again (f : Disk) (z : Path) (cfg cfg' : Text) (os : List Op) (ht : DiskTree f) (hz : EmptyDir f z)
    (ho : ∀ o ∈ os, SaneOp f o) :
    openZoo (runAll z (openZoo f z cfg).1 os) z cfg' = (runAll z (openZoo f z cfg).1 os, true) := by
  have h := inv_runAll f z os [] _ (inv_open f z cfg ht hz).2.1 ho
  obtain ⟨t, k⟩ := h.toml
  rw [openZoo, if_pos (readFile_at _ z _ t h.dirs k).1]

/-- C82: whatever is done with one environment, the files of another one are not touched. -/
theorem others_untouched (f : Disk) (z : Path) (o : Op) (n : Text) (r : Path) (hn : OneName (envOf o)) (hne : envOf o ≠ n)
    (hz : n ≠ t!".zoo") : (o.run z f).1.get (z ++ n :: r) = f.get (z ++ n :: r) := by
  have hb : ∀ m, m ≠ n → ¬ z ++ [m] <+: z ++ n :: r := fun m hm => not_below z m _ (by simpa using fun k => hm k.symm)
  cases o with
  | create m i =>
    simp only [envOf] at hn hne
    simp only [Op.run, create, pathOf_one z m hn]
    split
    · rfl
    · false_or_by_contra
      rename_i k
      rcases (create_keeps f (z ++ [m]) i).2 _ k with k | ⟨k, _⟩
      · exact hb m hne k
      · rw [List.prefix_append_right_inj, List.cons_prefix_cons] at k
        exact hne k.1.symm
  | delete m => exact (delete_only f z m hn).2.2.2 _ (hb m hne)
  | exports m s =>
    obtain ⟨h1, h2⟩ := export_copies f z m s hn
    simp only [Op.run]
    cases e : (exportScript f z m s).2 with
    | false => rw [h1 e]
    | true =>
      obtain ⟨x, t, _, _, _, k⟩ := h2 e
      exact k _ (ne_sub z _ _ (by simp [hz]))
  | add m q x =>
    simp only [envOf] at hn hne
    simp only [Op.run, pathOf_one z m hn, place]
    split
    · rw [Dict.get_put, if_neg]
      rw [List.append_assoc]
      refine ne_sub z _ _ ?_
      simp [hne]
    · rfl

/-- C82: an exported script stays as it was exported, until one of this name is exported again — also when its environment
is deleted. -/
theorem exported_stays (z : Path) (x : Text) (os : List Op) : ∀ (f : Disk),
    (∀ o ∈ os, EnvName (envOf o) ∧ NotExporting x o) →
    (runAll z f os).get (z ++ [t!".zoo", t!"bin", x]) = f.get (z ++ [t!".zoo", t!"bin", x]) := by
  induction os with
  | nil => intro f _; rfl
  | cons o os ih =>
    intro f ho
    obtain ⟨hn, hx⟩ := ho o (List.mem_cons_self ..)
    rw [runAll, ih _ (fun o' h' => ho o' (List.mem_cons_of_mem _ h'))]
    have hb : ¬ z ++ [envOf o] <+: z ++ [t!".zoo", t!"bin", x] := not_below z _ _ (by simpa using fun k => hn.2.1 k.symm)
    cases o with
    | create m i =>
      simp only [envOf] at hn hb
      simp only [Op.run, create, pathOf_one z m hn.1]
      split
      · rfl
      · false_or_by_contra
        rename_i k
        rcases (create_keeps f (z ++ [m]) i).2 _ k with k | ⟨k, _⟩
        · exact hb k
        · rw [List.prefix_append_right_inj, List.cons_prefix_cons] at k
          exact hn.2.1 k.1.symm
    | delete m => exact (delete_only f z m hn.1).2.2.2 _ hb
    | exports m s =>
      obtain ⟨h1, h2⟩ := export_copies f z m s hn.1
      simp only [Op.run]
      cases e : (exportScript f z m s).2 with
      | false => rw [h1 e]
      | true =>
        obtain ⟨y, t, hy, _, _, k⟩ := h2 e
        refine k _ (ne_sub z _ _ ?_)
        intro e'
        simp only [List.cons.injEq, true_and, and_true] at e'
        rcases hy with rfl | rfl
        · exact hx.1 e'.symm
        · exact hx.2 e'.symm
    | add m q y =>
      simp only [envOf] at hn hb
      simp only [Op.run, pathOf_one z m hn.1, place]
      split
      · rw [Dict.get_put, if_neg]
        intro k
        exact hb ⟨q, k⟩
      · rfl

theorem copyScripts_other (z d : Path) (x : Text) (ps : List Path) (h : ∀ p ∈ ps, p.getLast?.getD [] ≠ x) : ∀ f : Disk,
    (copyScripts z d f ps).1.get (binPath z ++ [x]) = f.get (binPath z ++ [x]) := by
  induction ps with
  | nil => intro f; rfl
  | cons p ps ih =>
    intro f
    have hp := h p (List.mem_cons_self ..)
    have ih := ih (fun q hq => h q (List.mem_cons_of_mem _ hq))
    have hc : (copyFile f p (binPath z ++ [p.getLast?.getD []])).1.get (binPath z ++ [x]) = f.get (binPath z ++ [x]) := by
      obtain ⟨h1, h2⟩ := copyFile_spec f p (binPath z ++ [p.getLast?.getD []])
      cases e : (copyFile f p (binPath z ++ [p.getLast?.getD []])).2 with
      | false => rw [h2 e]
      | true =>
        obtain ⟨t, _, k, _⟩ := h1 e
        rw [k, Dict.get_put, if_neg (ne_sub _ _ _ (by simpa using hp))]
    simp only [copyScripts]
    split
    · cases e : copyFile f p (binPath z ++ [p.getLast?.getD []]) with
      | mk g b =>
        rw [e] at hc
        cases b with
        | true => exact (ih g).trans hc
        | false => exact hc
    · exact ih f

/-- C82: exporting the scripts of a package copies each of them, if they have different names and the zoo has its
directory for them. -/
theorem export_all (f : Disk) (z : Path) (n : Text) (ps : List (Path × Text × Text)) (hn : OneName n)
    (hz : RealDir f (z ++ [t!".zoo", t!"bin"])) (hv : n ∈ list f z) (hn' : n ≠ t!".zoo")
    (hf : ∀ p ∈ ps, RealDir f (z ++ n :: t!"bin" :: p.1) ∧ f.get (z ++ n :: t!"bin" :: p.1 ++ [p.2.1]) = some (.file p.2.2))
    (hd : (ps.map (fun p => p.2.1)).Nodup)
    (hs : ∀ p ∈ ps, f.get (z ++ [t!".zoo", t!"bin", p.2.1]) = none ∨ ∃ t, f.get (z ++ [t!".zoo", t!"bin", p.2.1]) = some (.file t)) :
    (exportAll f z n (ps.map (fun p => z ++ n :: t!"bin" :: p.1 ++ [p.2.1]))).2 = true ∧
    ∀ p ∈ ps, (exportAll f z n (ps.map (fun p => z ++ n :: t!"bin" :: p.1 ++ [p.2.1]))).1.get (z ++ [t!".zoo", t!"bin", p.2.1])
      = some (.file p.2.2) := by
  have hl : load f z n = .ok (z ++ [n]) := by
    have hzz : RealDir f z := fun q hq hp => hz q hq (hp.trans (List.prefix_append _ _))
    exact (list_load f z n hzz hn).1.mp hv
  simp only [exportAll, hl]
  clear hl hv
  induction ps generalizing f with
  | nil => simp [copyScripts]
  | cons p ps ih =>
    obtain ⟨a, x, t⟩ := p
    simp only [List.map_cons, List.nodup_cons] at hd
    have hp := hf _ (List.mem_cons_self ..)
    simp only at hp
    have hbelow : isBelow (z ++ n :: t!"bin" :: a ++ [x]) (z ++ [n] ++ [t!"bin"]) = true := by
      rw [isBelow, List.isPrefixOf_iff_prefix]
      refine ⟨pathText (a ++ [x]), ?_⟩
      simp [pathText]
    obtain ⟨r1, r2⟩ := readFile_at f (z ++ n :: t!"bin" :: a) x t hp.1 hp.2
    have eb : binPath z ++ [x] = z ++ [t!".zoo", t!"bin", x] := by simp [binPath]
    have hw : walk f 40 (z ++ n :: t!"bin" :: a ++ [x]) = some (z ++ n :: t!"bin" :: a ++ [x]) := by
      obtain ⟨next, _, _, e⟩ := walk_dirs f 40 (z ++ n :: t!"bin" :: a) [x] hp.1
      rw [e]
      simp only [walkWith, hp.2]
      rfl
    have hne : ∀ b y, z ++ n :: t!"bin" :: b ++ [y] ≠ z ++ [t!".zoo", t!"bin", x] := by
      intro b y
      rw [List.append_assoc]
      exact ne_sub z _ _ (by simp [hn'])
    have hcopy : copyFile f (z ++ n :: t!"bin" :: a ++ [x]) (binPath z ++ [x]) =
        (f.put (z ++ [t!".zoo", t!"bin", x]) (.file t), true) := by
      rw [copyFile, eb, hw, if_neg (by simpa using hne a x), r2]
      simp only
      rcases hs _ (List.mem_cons_self ..) with k | ⟨u, k⟩
      · simp only at k
        rw [k]
        have hdd : (z ++ [t!".zoo", t!"bin", x]).dropLast = z ++ [t!".zoo", t!"bin"] := by
          rw [List.dropLast_append_of_ne_nil (by simp)]; rfl
        simp only
        rw [hdd, hz _ (by simp) (List.prefix_refl _), if_pos rfl]
      · simp only at k
        rw [k]
    have hlast : (z ++ n :: t!"bin" :: a ++ [x]).getLast?.getD [] = x := by rw [List.getLast?_concat]; rfl
    have hstep : copyScripts z (z ++ [n]) f (((z ++ n :: t!"bin" :: a ++ [x])) :: ps.map (fun p => z ++ n :: t!"bin" :: p.1 ++ [p.2.1]))
        = copyScripts z (z ++ [n]) (f.put (z ++ [t!".zoo", t!"bin", x]) (.file t)) (ps.map (fun p => z ++ n :: t!"bin" :: p.1 ++ [p.2.1])) := by
      rw [copyScripts, if_pos hbelow, hlast, hcopy]
    have get' : ∀ q, q ≠ z ++ [t!".zoo", t!"bin", x] → (f.put (z ++ [t!".zoo", t!"bin", x]) (.file t)).get q = f.get q := by
      intro q hq; rw [Dict.get_put, if_neg (fun k => hq k.symm)]
    have hnotdir : f.get (z ++ [t!".zoo", t!"bin", x]) ≠ some .dir := by
      rcases hs _ (List.mem_cons_self ..) with k | ⟨u, k⟩ <;> simp only at k <;> rw [k] <;> simp
    have hreal : ∀ d, RealDir f d → RealDir (f.put (z ++ [t!".zoo", t!"bin", x]) (.file t)) d := by
      intro d hd q hq hp
      rw [get', hd q hq hp]
      rintro rfl
      exact hnotdir (hd _ hq hp)
    have := ih (f.put (z ++ [t!".zoo", t!"bin", x]) (.file t)) (hreal _ hz) (fun p hp => by
        obtain ⟨k1, k2⟩ := hf p (List.mem_cons_of_mem _ hp)
        refine ⟨hreal _ k1, ?_⟩
        rw [get' _ (hne _ _), k2]) hd.2 (fun p hp => by
        have hpx : p.2.1 ≠ x := fun k => hd.1 (List.mem_map.mpr ⟨p, hp, k⟩)
        rw [get' _ (ne_sub z _ _ (by simpa using hpx))]
        exact hs p (List.mem_cons_of_mem _ hp))
    rw [List.map_cons, hstep]
    refine ⟨this.1, ?_⟩
    intro p hp
    rcases List.mem_cons.mp hp with rfl | hp
    · have := copyScripts_other z (z ++ [n]) x (ps.map (fun p => z ++ n :: t!"bin" :: p.1 ++ [p.2.1])) (by
        intro q hq
        obtain ⟨p, hp, rfl⟩ := List.mem_map.mp hq
        rw [List.getLast?_concat]
        exact fun k => hd.1 (List.mem_map.mpr ⟨p, hp, k⟩)) (f.put (z ++ [t!".zoo", t!"bin", x]) (.file t))
      rw [eb] at this
      rw [this, Dict.get_put, if_pos rfl]
    · exact this.2 p hp

/-! ### a concrete zoo -/

/-- A disk with an interpreter and an empty directory. -/
def zooDisk : Disk := [([t!"py"], .file t!"ELF"), ([t!"z"], .dir)]

def zooPy : Interp := ⟨[t!"py"], false, false, true, false, 3, 9, 7⟩

theorem zooDisk_tree : DiskTree zooDisk := by
  intro p x n h
  have hm := Dict.get_mem _ _ _ h
  simp only [zooDisk, List.mem_cons, Prod.mk.injEq, List.not_mem_nil, or_false] at hm
  have key : ∀ q : Path, p ++ [x] = q → p = q.dropLast := by intro q e; rw [← e]; simp
  rcases hm with ⟨e, _⟩ | ⟨e, _⟩ <;> obtain rfl := key _ e <;> decide

theorem zooDisk_empty : EmptyDir zooDisk [t!"z"] := by
  refine ⟨by simp, ?_, ?_⟩
  · intro q hq hp
    rcases (prefix_one q _).mp hp with rfl | rfl
    · exact absurd rfl hq
    · decide
  · intro r hr
    rw [Dict.get_none_iff]
    simp [zooDisk, Dict.keys, hr]

/-- Two environments are made, a script comes into the first and is exported, the first is deleted. -/
def zooOps : List Op :=
  [.create t!"a" (some zooPy), .create t!"b" (some zooPy), .add t!"a" [t!"bin", t!"run"] (.file t!"#!a"),
    .exports t!"a" t!"run", .delete t!"a"]

theorem oneName_letter (c : Char) (h : c ≠ '/' ∧ c ≠ '.') : EnvName [c] := by
  refine ⟨⟨by simp, by simpa using fun k => h.1 k.symm, ?_, by simp⟩, by simp, by simp⟩
  simpa using h.2

theorem zooOps_sane : ∀ o ∈ zooOps, SaneOp zooDisk o := by
  have ha := oneName_letter 'a' (by decide)
  have hb := oneName_letter 'b' (by decide)
  have hi : ∀ j, some zooPy = some j → j.windows = false ∧ ∃ q, walk zooDisk 39 j.path = some q := by
    intro j h
    simp only [Option.some.injEq] at h
    subst h
    exact ⟨rfl, [t!"py"], by decide⟩
  intro o ho
  simp only [zooOps, List.mem_cons, List.not_mem_nil, or_false] at ho
  rcases ho with rfl | rfl | rfl | rfl | rfl
  · exact ⟨ha, hi⟩
  · exact ⟨hb, hi⟩
  · exact ⟨ha, by simp⟩
  · exact ha
  · exact ha

example : envsAfter [] zooOps = [t!"b"] := by decide

example (n : Text) : n ∈ list (runAll [t!"z"] (openZoo zooDisk [t!"z"] []).1 zooOps) [t!"z"] ↔ n = t!"b" := by
  rw [zoo_history zooDisk [t!"z"] [] zooOps zooDisk_tree zooDisk_empty zooOps_sane]
  rw [show envsAfter [] zooOps = [t!"b"] by decide, List.mem_singleton]

/-- The zoo before the last step: the script is there, both environments are listed and can be loaded. -/
def zooFull : Disk := runAll [t!"z"] (openZoo zooDisk [t!"z"] []).1 (zooOps.take 3)

theorem zooFull_dirs (p : Path)
    (h : (List.range (p.length + 1)).all (fun k => k == 0 || zooFull.get (p.take k) == some .dir) = true) : RealDir zooFull p := by
  intro q hq hp
  have hl := hp.length_le
  have := List.all_eq_true.mp h q.length (List.mem_range.mpr (by omega))
  rw [← List.prefix_iff_eq_take.mp hp] at this
  simpa [hq] using this

example : t!"a" ∈ list zooFull [t!"z"] ∧ load zooFull [t!"z"] t!"a" = .ok [t!"z", t!"a"] := by
  have hz : RealDir zooFull [t!"z"] := zooFull_dirs _ (by decide)
  have ha : t!"a" ∈ list zooFull [t!"z"] := by decide
  exact ⟨ha, (list_load zooFull [t!"z"] t!"a" hz (oneName_letter 'a' (by decide)).1).1.mp ha⟩

example : (exportScript zooFull [t!"z"] t!"a" t!"run").2 = true ∧ (delete zooFull [t!"z"] t!"a").2 = true := by decide

example : (exportAll zooFull [t!"z"] t!"a" [[t!"z", t!"a", t!"bin", t!"run"]]).1.get [t!"z", t!".zoo", t!"bin", t!"run"] =
    some (.file t!"#!a") := by
  refine (export_all zooFull [t!"z"] t!"a" [([], t!"run", t!"#!a")] (oneName_letter 'a' (by decide)).1
    (zooFull_dirs _ (by decide)) (by decide) (by decide) ?_ (by simp) ?_).2 ([], t!"run", t!"#!a") (by simp)
  · intro p hp
    simp only [List.mem_singleton] at hp
    subst hp
    exact ⟨zooFull_dirs _ (by decide), by decide⟩
  · intro p hp
    simp only [List.mem_singleton] at hp
    subst hp
    left; decide

/-- C82 fails: the script of a deleted environment can still be run from the directory of the zoo. -/
theorem exported_remains_violated : ∃ (f : Disk) (z : Path) (os : List Op), DiskTree f ∧ EmptyDir f z ∧
    (∀ o ∈ os, SaneOp f o) ∧ t!"a" ∉ envsAfter [] os ∧ Op.exports t!"a" t!"run" ∈ os ∧
    (runAll z (openZoo f z []).1 os).get (z ++ [t!".zoo", t!"bin", t!"run"]) = some (.file t!"#!a") :=
  ⟨zooDisk, [t!"z"], zooOps, zooDisk_tree, zooDisk_empty, zooOps_sane, by decide, by simp [zooOps], by decide⟩

/-- C82 fails for other names: the empty name, `.` and `..` delete the whole zoo — environments, shared packages and
exported scripts — and the directory above it. -/
theorem delete_zoo_violated (f : Disk) (p : Path) (x : Text) (hz : f.get (p ++ [x]) = some .dir) (hp : f.get p = some .dir) :
    (∀ n ∈ [[], t!"."], (delete f (p ++ [x]) n).2 = true ∧ ∀ r, (delete f (p ++ [x]) n).1.get (p ++ [x] ++ r) = none) ∧
    ((delete f (p ++ [x]) t!"..").2 = true ∧ ∀ r, (delete f (p ++ [x]) t!"..").1.get (p ++ r) = none) := by
  have h1 : pathOf (p ++ [x]) [] = p ++ [x] := rfl
  have h2 : pathOf (p ++ [x]) t!"." = p ++ [x] := rfl
  have h3 : pathOf (p ++ [x]) t!".." = p := by
    have : pathOf (p ++ [x]) t!".." = (p ++ [x]).dropLast := rfl
    rw [this, List.dropLast_concat]
  refine ⟨?_, ?_⟩
  · intro n hn
    have hn' : pathOf (p ++ [x]) n = p ++ [x] := by
      simp only [List.mem_cons, List.not_mem_nil, or_false] at hn
      rcases hn with rfl | rfl
      · exact h1
      · exact h2
    simp only [delete, hn', rmtree, hz]
    exact ⟨trivial, fun r => by rw [rmtree_get, if_pos (List.prefix_append _ _)]⟩
  · simp only [delete, h3, rmtree, hp]
    exact ⟨trivial, fun r => by rw [rmtree_get, if_pos (List.prefix_append _ _)]⟩

/-- C82 fails for `.zoo`: it can be deleted like an environment, and then no script can be exported any more. -/
theorem delete_shared_violated (f : Disk) (z : Path) (hz : f.get (z ++ [t!".zoo"]) = some .dir) :
    (delete f z t!".zoo").2 = true ∧ ∀ n s, (exportScript (delete f z t!".zoo").1 z n s).2 = false := by
  have hn : OneName t!".zoo" := ⟨by simp, by decide, by decide, by decide⟩
  obtain ⟨d1, d2, _, _⟩ := delete_only f z _ hn
  have ht := d1.mpr hz
  refine ⟨ht, ?_⟩
  intro n s
  have hb : ∀ r, (delete f z t!".zoo").1.get (binPath z ++ r) = none := by
    intro r
    refine d2 ht _ ⟨t!"bin" :: r, ?_⟩
    simp [binPath]
  simp only [exportScript]
  split
  · rfl
  · split
    · rfl
    · rename_i d _ _ x _
      cases e : (copyFile (delete f z t!".zoo").1 (d ++ [t!"bin", x]) (binPath z ++ [x])).2 with
      | false => rfl
      | true =>
        obtain ⟨t, _, _, k⟩ := (copyFile_spec _ _ _).1 e
        rcases k with ⟨_, k⟩ | ⟨u, k⟩
        · have := hb []
          rw [List.append_nil] at this
          rw [List.dropLast_concat, this] at k
          cases k
        · rw [hb] at k; cases k

/-- C82 fails: with the scripts of a package a file is exported that is no script, because the name of its directory begins
with `bin`. -/
theorem export_all_violated : ∃ (d p : Path), ¬ d ++ [t!"bin"] <+: p ∧ isBelow p (d ++ [t!"bin"]) = true :=
  ⟨[t!"z", t!"a"], [t!"z", t!"a", t!"bin-data", t!"x"], by decide, by decide⟩

end Zoo
end Pkm
