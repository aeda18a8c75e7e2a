import Verif.Environments.BuilderLemmas
/-
C80: making virtual environments.
-/
set_option linter.unusedVariables false
set_option linter.unusedSimpArgs false
namespace Pkm
namespace Spec
open EnvBuild

/-- Whatever is in a directory has that directory. -/
def DiskTree (f : Disk) : Prop := ∀ p x n, f.get (p ++ [x]) = some n → p = [] ∨ f.get p = some .dir

/-- Nothing is at the path, and it can be made: what is above it are directories, as far as there is something. -/
def FreePath (f : Disk) (d : Path) : Prop :=
  d ≠ [] ∧ f.get d = none ∧ ∀ q, q ≠ [] → q <+: d → f.get q = none ∨ f.get q = some .dir

/-- The directory of a program, as text. -/
def programDir (p : EnvBuild.Path) : Text :=
  if p.length ≤ 1 then t!"/" else (p.take (p.length - 1)).flatMap (fun x => '/' :: x)

/-- What pkm writes to `pyvenv.cfg`. -/
def venvConfig (i : Interp) : Text :=
  t!"home: " ++ programDir i.path ++ t!"\nversion: " ++ showNat i.major ++ t!"." ++ showNat i.minor ++ t!"." ++ showNat i.micro
    ++ t!"\ninclude-system-site-packages: false"

/-- What has to be in an environment outside Windows: its configuration, the directories for executables, headers and
packages, `lib64` on 64-bit systems other than Mac, and three names of the interpreter. -/
def venvFiles (d : Path) (i : Interp) : Dict Path Node :=
  let v := showNat i.major ++ '.' :: showNat i.minor
  [([], .dir), ([t!"pyvenv.cfg"], .file (venvConfig i)), ([t!"bin"], .dir), ([t!"include"], .dir), ([t!"lib"], .dir),
    ([t!"lib", t!"python" ++ v], .dir), ([t!"lib", t!"python" ++ v, t!"site-packages"], .dir)]
  ++ (if i.bits32 || !i.posix || i.darwin then [] else [([t!"lib64"], .link (d ++ [t!"lib"]))])
  ++ [([t!"bin", t!"python"], .link i.path), ([t!"bin", t!"python" ++ showNat i.major], .link i.path),
    ([t!"bin", t!"python" ++ v], .link i.path)]

/-- The keys that Python finds in `pyvenv.cfg` (PEP 405): the lines of the form `key = value`. -/
def pyvenvKeys (t : Text) : List Text :=
  ((Config.splitAt Config.isBreak t).filter (fun l => l.contains '=')).map
    (fun l => (Config.stripText (l.takeWhile (· ≠ '='))).map Char.toLower)

end Spec

namespace EnvBuild
open Spec

/-! ### lemmas -/

theorem homeText_dir (i : Interp) : homeText i = programDir i.path := by
  simp only [homeText, programDir, pathText, List.isEmpty_iff, List.dropLast_eq_take]
  by_cases h : i.path.length ≤ 1
  · rw [if_pos h, if_pos (by rw [List.take_eq_nil_iff]; omega)]
  · rw [if_neg h, if_neg]
    rw [List.take_eq_nil_iff]
    intro k
    rcases k with k | k
    · omega
    · rw [k] at h; simp at h

theorem cfgText_config (i : Interp) : cfgText i = venvConfig i := by
  simp only [cfgText, venvConfig, Config.writeWheel, Config.writeLine, homeText_dir]
  simp [List.append_assoc]

theorem tree_below (f : Disk) (ht : DiskTree f) (p : Path) (hp : p ≠ []) (h : f.get p ≠ some .dir) (r : Path) (hr : r ≠ []) :
    f.get (p ++ r) = none := by
  have key : ∀ n, ∀ r : Path, r.length = n → r ≠ [] → f.get (p ++ r) = none := by
    intro n
    induction n with
    | zero => intro r hl hr; exact absurd (List.length_eq_zero_iff.mp hl) hr
    | succ n ih =>
      intro r hl hr
      have e : r = r.dropLast ++ [r.getLast hr] := (List.dropLast_concat_getLast hr).symm
      cases hg : f.get (p ++ r) with
      | none => rfl
      | some m =>
        rw [e, ← List.append_assoc] at hg
        rcases ht _ _ _ hg with k | k
        · simp [hp] at k
        · by_cases hd : r.dropLast = []
          · rw [hd, List.append_nil] at k; exact absurd k h
          · rw [ih r.dropLast (by simp [hl]) hd] at k; cases k
  exact key _ r rfl hr

theorem walkWith_free (f : Disk) (next : Path → Option Path) (xs : Path) : ∀ cur, xs ≠ [] → f.get (cur ++ xs) = none →
    (∀ q, q ≠ [] → q <+: xs → f.get (cur ++ q) = none ∨ f.get (cur ++ q) = some .dir) → walkWith f next cur xs = none := by
  induction xs with
  | nil => intro cur h; exact absurd rfl h
  | cons x xs ih =>
    intro cur _ hn h
    simp only [walkWith]
    rcases h [x] (by simp) (by simp) with k | k
    · rw [k]
    · rw [k]
      by_cases hx : xs = []
      · subst hx; rw [hn] at k; cases k
      · refine ih (cur ++ [x]) hx (by simpa using hn) ?_
        intro q hq hp
        have := h (x :: q) (by simp) (by simpa using hp)
        simpa using this

theorem free_not_present (f : Disk) (d : Path) (h : FreePath f d) : present f d = false := by
  have : walk f 40 d = none := walkWith_free f _ d [] h.1 h.2.1 h.2.2
  simp [present, this]

theorem in_start (f : Disk) (d : Path) (ht : DiskTree f) (h : FreePath f d) :
    ∃ g, Step.run f (.mkdir d) = (g, true) ∧ In g d (fun r => if r = [] then some .dir else none) := by
  have m := mkdirs_get d f [] (by simpa using h.2.2)
  refine ⟨(mkdirs f [] d).1, ?_, ?_, ?_⟩
  · simp only [Step.run]; rw [← m.1]
  · intro q hq hp; exact m.2 q hq hp
  · intro r
    by_cases hr : r = []
    · subst hr; simpa using m.2 d h.1 (List.prefix_refl d)
    · simp only [if_neg hr]
      have hb := tree_below f ht d h.1 (by rw [h.2.1]; simp) r hr
      rw [← hb]
      apply Decidable.byContradiction
      intro hn
      have := (mkdirs_new d f [] (d ++ r) hn).1.length_le
      simp at this
      exact hr (List.length_eq_zero_iff.mp (by omega))

theorem run_cons (f g : Disk) (s : Step) (ss : List Step) (h : s.run f = (g, true)) : runSteps f (s :: ss) = runSteps g ss := by
  simp only [runSteps, h]

theorem in_run (f : Disk) (d : Path) (G H : Path → Option Node) (h : In f d G) (e : ∀ r, G r = H r) : In f d H :=
  ⟨h.base, fun r => by rw [← e, h.rel]⟩

theorem python_names (i : Interp) : t!"python" ≠ t!"python" ++ showNat i.major ∧
    t!"python" ≠ t!"python" ++ (showNat i.major ++ '.' :: showNat i.minor) ∧
    t!"python" ++ showNat i.major ≠ t!"python" ++ (showNat i.major ++ '.' :: showNat i.minor) := by
  have hp := List.length_pos_iff.mpr (showNat_ne_nil i.major)
  refine ⟨?_, ?_, ?_⟩ <;> intro h <;> have h := congrArg List.length h <;>
    simp only [List.length_append, List.length_cons, List.length_nil] at h <;> omega

theorem prefix_two (r : Path) (x y : Text) : r <+: [x, y] ↔ r = [] ∨ r = [x] ∨ r = [x, y] := by
  constructor
  · intro h
    rcases r with _ | ⟨a, _ | ⟨b, r⟩⟩
    · simp
    · simp at h; simp [h]
    · simp [List.cons_prefix_cons] at h; simp [h]
  · rintro (rfl | rfl | rfl) <;> simp

theorem prefix_three (r : Path) (x y z : Text) : r <+: [x, y, z] ↔ r = [] ∨ r = [x] ∨ r = [x, y] ∨ r = [x, y, z] := by
  constructor
  · intro h
    rcases r with _ | ⟨a, r⟩
    · simp
    · obtain ⟨rfl, h'⟩ := List.cons_prefix_cons.mp h
      rcases (prefix_two r y z).mp h' with rfl | rfl | rfl <;> simp
  · rintro (rfl | rfl | rfl | rfl) <;> simp

theorem prefix_one (r : Path) (x : Text) : r <+: [x] ↔ r = [] ∨ r = [x] := by
  constructor
  · intro h
    rcases r with _ | ⟨a, r⟩
    · simp
    · simp [List.cons_prefix_cons] at h; simp [h]
  · rintro (rfl | rfl) <;> simp

theorem get_snoc (D : Dict Path Node) (r s : Path) (n : Node) (h : D.get r = none) :
    (D ++ [(r, n)]).get s = if r = s then some n else D.get s := by
  induction D with
  | nil => simp [Dict.get]
  | cons p D ih =>
    obtain ⟨a, m⟩ := p
    simp only [Dict.get, List.cons_append] at h ⊢
    by_cases ha : a = r
    · rw [if_pos ha] at h; cases h
    · rw [if_neg ha] at h
      rw [ih h]
      by_cases has : a = s
      · subst has; simp [Ne.symm ha]
      · simp [has]

theorem in_mkdir1 (g : Disk) (d : Path) (D : Dict Path Node) (a : Text) (h : In g d D.get) (hd : d ≠ [])
    (h0 : D.get [] = some .dir) (h1 : D.get [a] = none) :
    ∃ g', Step.run g (.mkdir (d ++ [a])) = (g', true) ∧ In g' d (D ++ [([a], Node.dir)]).get := by
  obtain ⟨g', e, k⟩ := in_mkdir g d _ [a] h hd (by
    intro r hr hp
    rcases (prefix_one r _).mp hp with rfl | rfl
    · exact absurd rfl hr
    · exact .inl h1)
  refine ⟨g', e, in_run _ _ _ _ k ?_⟩
  intro r
  rw [get_snoc D [a] r .dir h1]
  simp only [prefix_one]
  by_cases hr : r = []
  · subst hr; simp [h0]
  · by_cases hr' : [a] = r
    · subst hr'; simp
    · simp [hr, hr', Ne.symm hr']

theorem in_mkdir3 (g : Disk) (d : Path) (D : Dict Path Node) (a b c : Text) (h : In g d D.get) (hd : d ≠ [])
    (h0 : D.get [] = some .dir) (h1 : D.get [a] = none) (h2 : D.get [a, b] = none) (h3 : D.get [a, b, c] = none) :
    ∃ g', Step.run g (.mkdir (d ++ [a, b, c])) = (g', true) ∧
      In g' d (D ++ [([a], Node.dir), ([a, b], Node.dir), ([a, b, c], Node.dir)]).get := by
  obtain ⟨g', e, k⟩ := in_mkdir g d _ [a, b, c] h hd (by
    intro r hr hp
    rcases (prefix_three r _ _ _).mp hp with rfl | rfl | rfl | rfl
    · exact absurd rfl hr
    · exact .inl h1
    · exact .inl h2
    · exact .inl h3)
  refine ⟨g', e, in_run _ _ _ _ k ?_⟩
  intro r
  have e1 : ∀ s, (D ++ [([a], Node.dir)]).get s = if [a] = s then some .dir else D.get s := fun s => get_snoc D [a] s .dir h1
  have e2 : ∀ s, (D ++ [([a], Node.dir)] ++ [([a, b], Node.dir)]).get s = if [a, b] = s then some .dir
      else if [a] = s then some .dir else D.get s := fun s => by
    rw [get_snoc _ [a, b] s .dir (by rw [e1]; simp [h2]), e1]
  have e3 : (D ++ [([a], Node.dir)] ++ [([a, b], Node.dir)] ++ [([a, b, c], Node.dir)]).get r = if [a, b, c] = r then some .dir
      else if [a, b] = r then some .dir else if [a] = r then some .dir else D.get r := by
    rw [get_snoc _ [a, b, c] r .dir (by rw [e2]; simp [h3]), e2]
  have e4 : D ++ [([a], Node.dir), ([a, b], Node.dir), ([a, b, c], Node.dir)] =
      D ++ [([a], Node.dir)] ++ [([a, b], Node.dir)] ++ [([a, b, c], Node.dir)] := by simp
  rw [e4, e3]
  simp only [prefix_three]
  by_cases hr : r = []
  · subst hr; simp [h0]
  · by_cases r1 : r = [a]
    · subst r1; simp
    · by_cases r2 : r = [a, b]
      · subst r2; simp
      · by_cases r3 : r = [a, b, c]
        · subst r3; simp
        · simp [hr, r1, r2, r3, Ne.symm r1, Ne.symm r2, Ne.symm r3]

theorem in_put (g : Disk) (d : Path) (D : Dict Path Node) (a : Text) (n : Node) (h : In g d D.get)
    (h0 : D.get [] = some .dir) (h1 : D.get [a] = none) :
    ∃ g', Step.run g (.put (d ++ [a]) n) = (g', true) ∧ In g' d (D ++ [([a], n)]).get := by
  obtain ⟨g', e, k⟩ := in_place g d _ [a] n h (by simp) h1 h0
  exact ⟨g', e, in_run _ _ _ _ k (fun r => (get_snoc D [a] r n h1).symm)⟩

theorem in_put2 (g : Disk) (d : Path) (D : Dict Path Node) (a b : Text) (n : Node) (h : In g d D.get)
    (h0 : D.get [a] = some .dir) (h1 : D.get [a, b] = none) :
    ∃ g', place g (d ++ [a, b]) n = (g', true) ∧ In g' d (D ++ [([a, b], n)]).get := by
  obtain ⟨g', e, k⟩ := in_place g d _ [a, b] n h (by simp) h1 h0
  exact ⟨g', e, in_run _ _ _ _ k (fun r => (get_snoc D [a, b] r n h1).symm)⟩

theorem in_link (g : Disk) (d : Path) (D : Dict Path Node) (a b : Text) (to : Path) (h : In g d D.get)
    (h0 : D.get [a] = some .dir) (h1 : D.get [a, b] = none) :
    ∃ g', Step.run g (.linkNew (d ++ [a, b]) to) = (g', true) ∧ In g' d (D ++ [([a, b], Node.link to)]).get := by
  obtain ⟨g', e, k⟩ := in_linkNew g d _ a b to h h1 h0
  exact ⟨g', e, in_run _ _ _ _ k (fun r => (get_snoc D [a, b] r _ h1).symm)⟩

/-- The state after the directories. -/
theorem in_dirs_made (f : Disk) (d : Path) (cfg : Text) (b inc l py sp : Text) (ht : DiskTree f) (h : FreePath f d)
    (hb : b ≠ t!"pyvenv.cfg") (hi : inc ≠ t!"pyvenv.cfg") (hl : l ≠ t!"pyvenv.cfg") (hbi : b ≠ inc) (hbl : b ≠ l)
    (hil : inc ≠ l) (ss : List Step) :
    ∃ g, runSteps f ([.mkdir d, .put (d ++ [t!"pyvenv.cfg"]) (.file cfg)]
        ++ ([[b], [inc], [l, py, sp]].map (fun x => Step.mkdir (d ++ x))) ++ ss) = runSteps g ss ∧
      In g d (Dict.get [([], Node.dir), ([t!"pyvenv.cfg"], Node.file cfg), ([b], Node.dir), ([inc], Node.dir), ([l], Node.dir), ([l, py], Node.dir),
        ([l, py, sp], Node.dir)]) := by
  obtain ⟨g0, e0, h0⟩ := in_start f d ht h
  have h0 : In g0 d (Dict.get [([], Node.dir)]) := in_run _ _ _ _ h0 (by intro r; simp [Dict.get, eq_comm])
  obtain ⟨g1, e1, h1⟩ := in_put g0 d _ (t!"pyvenv.cfg") (.file cfg) h0 (by simp [Dict.get]) (by simp [Dict.get])
  obtain ⟨g2, e2, h2⟩ := in_mkdir1 g1 d _ b h1 h.1 (by simp [Dict.get]) (by simp [Dict.get, hb.symm])
  obtain ⟨g3, e3, h3⟩ := in_mkdir1 g2 d _ inc h2 h.1 (by simp [Dict.get]) (by simp [Dict.get, hi.symm, hbi])
  obtain ⟨g4, e4, h4⟩ := in_mkdir3 g3 d _ l py sp h3 h.1 (by simp [Dict.get]) (by simp [Dict.get, hl.symm, hbl, hil])
    (by simp [Dict.get]) (by simp [Dict.get])
  refine ⟨g4, ?_, h4⟩
  show runSteps f (.mkdir d :: .put _ _ :: .mkdir _ :: .mkdir _ :: .mkdir _ :: ss) = _
  rw [run_cons _ _ _ _ e0, run_cons _ _ _ _ e1, run_cons _ _ _ _ e2, run_cons _ _ _ _ e3, run_cons _ _ _ _ e4]

/-- The state after the three names of the interpreter. -/
theorem in_exes (g : Disk) (d : Path) (i : Interp) (D : Dict Path Node) (h : In g d D.get) (hb : D.get [t!"bin"] = some .dir)
    (hn : ∀ n, D.get [t!"bin", n] = none) :
    ∃ g', runSteps g ((exeNames i).map (fun n => .linkNew (d ++ [t!"bin", n]) i.path)) = (g', true) ∧
      In g' d (D ++ [([t!"bin", t!"python"], Node.link i.path), ([t!"bin", t!"python" ++ showNat i.major], Node.link i.path),
    ([t!"bin", t!"python" ++ (showNat i.major ++ '.' :: showNat i.minor)], Node.link i.path)]).get := by
  obtain ⟨n1, n2, n3⟩ := python_names i
  generalize hp : t!"python" = p at *
  have hk : ∀ {x y : Text}, x ≠ y → [t!"bin", x] ≠ [t!"bin", y] := by
    intro x y hxy e; simp only [List.cons.injEq, true_and, and_true] at e; exact hxy e
  obtain ⟨g1, e1, h1⟩ := in_link g d D (t!"bin") p i.path h hb (hn _)
  have k1 := fun r => get_snoc D [t!"bin", p] r (.link i.path) (hn _)
  obtain ⟨g2, e2, h2⟩ := in_link g1 d _ (t!"bin") (p ++ showNat i.major) i.path h1
    (by rw [k1, if_neg (by simp)]; exact hb) (by rw [k1, if_neg (hk n1)]; exact hn _)
  have k2 := fun r => get_snoc (D ++ [([t!"bin", p], Node.link i.path)]) [t!"bin", p ++ showNat i.major] r (.link i.path)
    (by rw [k1, if_neg (hk n1)]; exact hn _)
  obtain ⟨g3, e3, h3⟩ := in_link g2 d _ (t!"bin") (p ++ (showNat i.major ++ '.' :: showNat i.minor)) i.path h2
    (by rw [k2, if_neg (by simp), k1, if_neg (by simp)]; exact hb)
    (by rw [k2, if_neg (hk n3), k1, if_neg (hk n2)]; exact hn _)
  refine ⟨g3, ?_, ?_⟩
  · simp only [exeNames, hp, List.map_cons, List.map_nil]
    rw [run_cons _ _ _ _ e1, run_cons _ _ _ _ e2, run_cons _ _ _ _ e3]
    rfl
  · simpa using h3

theorem create_in (f : Disk) (d : Path) (i : Interp) (ht : DiskTree f) (h : FreePath f d) (hw : i.windows = false) :
    ∃ g, create f d (some i) = (g, true) ∧ In g d (venvFiles d i).get := by
  obtain ⟨n1, n2, n3⟩ := python_names i
  have hc : create f d (some i) = runSteps f (steps d i) := by
    unfold create; rw [free_not_present f d h]; rfl
  rw [hc]
  simp only [steps, dirsOf, hw, Bool.false_eq_true, if_false]
  simp only [List.append_assoc _ _ (List.map _ (exeNames i))]
  obtain ⟨g, e, hg⟩ := in_dirs_made f d (cfgText i) (t!"bin") (t!"include") (t!"lib")
    (t!"python" ++ (showNat i.major ++ '.' :: showNat i.minor)) (t!"site-packages") ht h
    (by decide) (by decide) (by decide) (by decide) (by decide) (by decide)
    ((if (!i.bits32 && i.posix && !i.darwin) = true then [.put (d ++ [t!"lib64"]) (.link (d ++ [t!"lib"]))] else [])
      ++ (exeNames i).map (fun n => .linkNew (d ++ [t!"bin", n]) i.path))
  rw [e]
  have hx : (i.bits32 || !i.posix || i.darwin) = !(!i.bits32 && i.posix && !i.darwin) := by
    cases i.bits32 <;> cases i.posix <;> cases i.darwin <;> rfl
  by_cases hb : (!i.bits32 && i.posix && !i.darwin) = true
  · rw [if_pos hb]
    obtain ⟨g1, e1, h1⟩ := in_put g d _ (t!"lib64") (.link (d ++ [t!"lib"])) hg (by simp [Dict.get]) (by simp [Dict.get])
    rw [List.singleton_append, run_cons _ _ _ _ e1]
    obtain ⟨g2, e2, h2⟩ := in_exes g1 d i _ h1 (by simp [Dict.get]) (by intro n; simp [Dict.get])
    refine ⟨g2, e2, ?_⟩
    simp only [venvFiles, ← cfgText_config, hx, hb, Bool.not_true, Bool.false_eq_true, if_false]
    exact h2
  · rw [if_neg hb]
    rw [Bool.not_eq_true] at hb
    obtain ⟨g2, e2, h2⟩ := in_exes g d i _ hg (by simp [Dict.get]) (by intro n; simp [Dict.get])
    rw [List.nil_append]
    refine ⟨g2, e2, ?_⟩
    simp only [venvFiles, ← cfgText_config, hx, hb, Bool.not_false, if_true]
    exact h2

/-! ### the properties -/

/-- C80: nothing is made where there is something, or without an interpreter. -/
theorem create_refuses (f : Disk) (d : Path) (i : Option Interp) (h : present f d = true ∨ i = none) :
    create f d i = (f, false) := by
  unfold create
  rcases h with h | h
  · rw [if_pos h]
  · subst h; split <;> rfl

example : create [([t!"e"], .dir)] [t!"e"] (some ⟨[t!"usr", t!"python"], false, false, true, false, 3, 9, 1⟩) = ([([t!"e"], .dir)], false) :=
  create_refuses _ _ _ (.inl (by decide))

/-- C80: whatever the disk and the outcome, nothing that was there changes, and what is new is the environment and the
directories above it. -/
theorem create_keeps (f : Disk) (d : Path) (i : Option Interp) :
    (∀ p n, f.get p = some n → (create f d i).1.get p = some n) ∧
    (∀ p, (create f d i).1.get p ≠ f.get p → d <+: p ∨ (p <+: d ∧ (create f d i).1.get p = some .dir)) := by
  unfold create
  split
  · exact ⟨Ext.refl f, New.refl d f⟩
  · cases i with
    | none => exact ⟨Ext.refl f, New.refl d f⟩
    | some i => exact ⟨steps_ext _ f, steps_new d _ (steps_inside d i) f⟩

/-- C80: outside Windows, at a free path an environment is made that has exactly the files of an environment. -/
theorem create_contents (f : Disk) (d : Path) (i : Interp) (ht : DiskTree f) (h : FreePath f d) (hw : i.windows = false) :
    (create f d (some i)).2 = true ∧ ∀ r, (create f d (some i)).1.get (d ++ r) = (venvFiles d i).get r := by
  obtain ⟨g, e, hg⟩ := create_in f d i ht h hw
  rw [e]
  exact ⟨rfl, hg.rel⟩

/-- A disk with an interpreter behind two symbolic links. -/
def sampleDisk : Disk := [([t!"usr"], .dir), ([t!"usr", t!"bin"], .dir), ([t!"usr", t!"bin", t!"python3.9"], .file (t!"ELF")),
  ([t!"usr", t!"bin", t!"python3"], .link [t!"usr", t!"bin", t!"python3.9"]), ([t!"bin"], .link [t!"usr", t!"bin"]),
  ([t!"home"], .dir)]

def sampleInterp : Interp := ⟨[t!"bin", t!"python3"], false, false, true, false, 3, 9, 7⟩

theorem sample_tree : DiskTree sampleDisk := by
  intro p x n h
  have hm := Dict.get_mem _ _ _ h
  simp only [sampleDisk, List.mem_cons, Prod.mk.injEq, List.not_mem_nil, or_false] at hm
  have key : ∀ q : Path, p ++ [x] = q → p = q.dropLast := by intro q e; rw [← e]; simp
  rcases hm with ⟨e, _⟩ | ⟨e, _⟩ | ⟨e, _⟩ | ⟨e, _⟩ | ⟨e, _⟩ | ⟨e, _⟩ <;> obtain rfl := key _ e <;> decide

theorem sample_free : FreePath sampleDisk [t!"home", t!"env"] := by
  refine ⟨by simp, by decide, ?_⟩
  intro q hq hp
  rcases (prefix_two q _ _).mp hp with rfl | rfl | rfl <;> first | exact absurd rfl hq | decide

example : (create sampleDisk [t!"home", t!"env"] (some sampleInterp)).1.get
    [t!"home", t!"env", t!"bin", t!"python3.9"] = some (.link [t!"bin", t!"python3"]) :=
  (create_contents _ _ _ sample_tree sample_free rfl).2 [t!"bin", t!"python3.9"]

/-- C80: the new directory is an environment, and each of the names of its interpreter leads to the interpreter that was
given, which the system finds through at most 39 symbolic links. -/
theorem create_is_venv (f : Disk) (d : Path) (i : Interp) (q : Path) (ht : DiskTree f) (h : FreePath f d)
    (hw : i.windows = false) (hq : walk f 39 i.path = some q) :
    isVenv (create f d (some i)).1 d = true ∧
    ∀ n ∈ [t!"python", t!"python" ++ showNat i.major, t!"python" ++ (showNat i.major ++ '.' :: showNat i.minor)],
      walk (create f d (some i)).1 40 (d ++ [t!"bin", n]) = some q := by
  obtain ⟨g, e, hg⟩ := create_in f d i ht h hw
  have hx : Ext f g := by have := (create_keeps f d (some i)).1; rwa [e] at this
  rw [e]
  obtain ⟨n1, n2, n3⟩ := python_names i
  have hk : ∀ {x y : Text}, x ≠ y → [t!"bin", x] ≠ [t!"bin", y] := by
    intro x y hxy e; simp only [List.cons.injEq, true_and, and_true] at e; exact hxy e
  have hbin : g.get (d ++ [t!"bin"]) = some .dir := by rw [hg.rel]; simp [venvFiles, Dict.get]
  have hlink : ∀ n ∈ [t!"python", t!"python" ++ showNat i.major, t!"python" ++ (showNat i.major ++ '.' :: showNat i.minor)],
      g.get (d ++ [t!"bin", n]) = some (.link i.path) := by
    intro n hn
    rw [hg.rel]
    have hsk : ∀ r : Path, r.head? = some (t!"bin") → r.length = 2 →
        (venvFiles d i).get r = Dict.get [([t!"bin", t!"python"], Node.link i.path), ([t!"bin", t!"python" ++ showNat i.major], .link i.path),
          ([t!"bin", t!"python" ++ (showNat i.major ++ '.' :: showNat i.minor)], .link i.path)] r := by
      intro r h1 h2
      rcases r with _ | ⟨a, _ | ⟨b, _ | ⟨c, r⟩⟩⟩ <;> simp at h1 h2
      subst h1
      simp only [venvFiles]
      split <;> simp [Dict.get]
    rw [hsk _ (by simp) (by simp)]
    simp only [List.mem_cons, List.not_mem_nil, or_false] at hn
    simp only [Dict.get]
    rcases hn with rfl | rfl | rfl
    · rw [if_pos rfl]
    · rw [if_neg (hk n1), if_pos rfl]
    · rw [if_neg (hk n2), if_neg (hk n3), if_pos rfl]
  have hwalk : ∀ n ∈ [t!"python", t!"python" ++ showNat i.major, t!"python" ++ (showNat i.major ++ '.' :: showNat i.minor)],
      walk g 40 (d ++ [t!"bin", n]) = some q := by
    intro n hn
    have hb : ∀ r, r ≠ [] → r <+: d ++ [t!"bin"] → g.get r = some .dir := by
      refine in_dirs g d _ [t!"bin"] hg ?_
      intro r hr hp
      rcases (prefix_one r _).mp hp with rfl | rfl
      · exact absurd rfl hr
      · rw [← hg.rel]; exact hbin
    obtain ⟨next, _, h2, e2⟩ := walk_dirs g 40 (d ++ [t!"bin"]) [n] hb
    have hl := hlink n hn
    rw [show d ++ [t!"bin", n] = d ++ [t!"bin"] ++ [n] by simp] at hl ⊢
    rw [e2, h2 39 rfl]
    simp only [walkWith, hl, List.append_nil]
    exact walk_ext f g hx 39 _ _ hq
  refine ⟨?_, hwalk⟩
  have hcfg : walk g 40 (d ++ [t!"pyvenv.cfg"]) = some (d ++ [t!"pyvenv.cfg"]) := by
    obtain ⟨next, _, h2, e2⟩ := walk_dirs g 40 d [t!"pyvenv.cfg"] hg.base
    rw [e2]
    have : g.get (d ++ [t!"pyvenv.cfg"]) = some (.file (venvConfig i)) := by rw [hg.rel]; simp [venvFiles, Dict.get]
    simp only [walkWith, this]
    rfl
  simp only [isVenv, present, hcfg, hwalk _ (List.mem_cons_self ..)]
  rfl

example : isVenv (create sampleDisk [t!"home", t!"env"] (some sampleInterp)).1 [t!"home", t!"env"] = true :=
  (create_is_venv _ _ _ [t!"usr", t!"bin", t!"python3.9"] sample_tree sample_free rfl (by decide)).1

/-- C80: outside Windows a failed attempt leaves nothing behind. -/
theorem create_failed (f : Disk) (d : Path) (i : Option Interp) (ht : DiskTree f) (hw : ∀ j, i = some j → j.windows = false)
    (hf : (create f d i).2 = false) : (create f d i).1 = f := by
  unfold create at hf ⊢
  by_cases hp : present f d = true
  · rw [if_pos hp]
  · rw [if_neg hp] at hf ⊢
    cases i with
    | none => rfl
    | some i =>
      have hp' : present f d = false := by simpa using hp
      have key : ∀ xs pre, (∀ q, q ≠ [] → q <+: pre → f.get q = some .dir) → pre ++ xs = d →
          (xs ≠ [] ∧ f.get d = none ∧ ∀ q, q ≠ [] → q <+: d → f.get q = none ∨ f.get q = some .dir) ∨
          mkdirs f pre xs = (f, false) := by
        intro xs
        induction xs with
        | nil =>
          intro pre hb e
          simp at e
          subst e
          obtain ⟨next, _, _, e⟩ := walk_dirs f 40 pre [] hb
          simp [present, walkWith] at e hp'
          rw [e] at hp'; cases hp'
        | cons x xs ih =>
          intro pre hb e
          simp only [mkdirs]
          cases hg : f.get (pre ++ [x]) with
          | none =>
            left
            have hbel : ∀ r, f.get (pre ++ [x] ++ r) = none := by
              intro r
              by_cases hr : r = []
              · subst hr; simpa using hg
              · exact tree_below f ht (pre ++ [x]) (by simp) (by rw [hg]; simp) r hr
            refine ⟨by simp, ?_, ?_⟩
            · rw [← e]; simpa using hbel xs
            · intro q hq hpq
              rw [← e] at hpq
              rcases prefix_append_cases q pre (x :: xs) hpq with k | ⟨r, hr, hrx, rfl⟩
              · exact .inr (hb q hq k)
              · left
                cases r with
                | nil => exact absurd rfl hr
                | cons y r =>
                  obtain ⟨rfl, _⟩ := List.cons_prefix_cons.mp hrx
                  simpa using hbel r
          | some n =>
            cases n with
            | file t => exact .inr rfl
            | link t => exact .inr rfl
            | dir =>
              rcases ih (pre ++ [x]) (by
                intro q hq hpq
                rcases prefix_append_cases q pre [x] hpq with k | ⟨r, hr, hrx, rfl⟩
                · exact hb q hq k
                · rcases (prefix_one r x).mp hrx with rfl | rfl
                  · exact absurd rfl hr
                  · exact hg) (by simpa using e) with k | k
              · exact .inl ⟨by simp, k.2⟩
              · exact .inr k
      rcases key d [] (by intro q hq hp; exact absurd (List.prefix_nil.mp hp) hq) rfl with k | k
      · have h2 := create_in f d i ht k (hw i rfl)
        unfold create at h2
        rw [if_neg hp] at h2
        obtain ⟨g, e, _⟩ := h2
        rw [e] at hf; cases hf
      · have : runSteps f (steps d i) = (f, false) := by
          simp only [steps, List.cons_append, List.append_assoc, runSteps, Step.run, k]
        show (runSteps f (steps d i)).1 = f
        rw [this]

example : (create ([([t!"home"], .file [])] : Disk) [t!"home", t!"env"] (some sampleInterp)) = ([([t!"home"], .file [])], false) := by
  decide

/-- C80 fails on Windows for an interpreter that is not called `python.exe`: what is made is no environment. -/
theorem create_windows_violated : ∃ f d i, DiskTree f ∧ FreePath f d ∧ i.windows = true ∧ present f i.path = true ∧
    (create f d (some i)).2 = true ∧ isVenv (create f d (some i)).1 d = false := by
  refine ⟨[([t!"py"], .dir), ([t!"py", t!"python3.exe"], .file (t!"PE"))], [t!"env"],
    ⟨[t!"py", t!"python3.exe"], true, false, false, false, 3, 9, 7⟩, ?_, ?_, rfl, by decide, by decide, by decide⟩
  · intro p x n h
    have hm := Dict.get_mem _ _ _ h
    simp only [List.mem_cons, Prod.mk.injEq, List.not_mem_nil, or_false] at hm
    have key : ∀ q : Path, p ++ [x] = q → p = q.dropLast := by intro q e; rw [← e]; simp
    rcases hm with ⟨e, _⟩ | ⟨e, _⟩ <;> obtain rfl := key _ e <;> decide
  · refine ⟨by simp, by decide, ?_⟩
    intro q hq hp
    rcases (prefix_one q _).mp hp with rfl | rfl
    · exact absurd rfl hq
    · decide

/-- C80 fails on Windows when a file cannot be copied: what was made remains, and the next attempt is refused. -/
theorem create_windows_failed_violated : ∃ f d i, (create f d (some i)).2 = false ∧ (create f d (some i)).1 ≠ f ∧
    isVenv (create f d (some i)).1 d = false ∧ ∀ j, create (create f d (some i)).1 d j = ((create f d (some i)).1, false) := by
  refine ⟨[([t!"py"], .dir), ([t!"py", t!"python.exe"], .dir)], [t!"env"],
    ⟨[t!"py", t!"python3.exe"], true, false, false, false, 3, 9, 7⟩, by decide, by decide, by decide, ?_⟩
  intro j
  exact create_refuses _ _ _ (.inl (by decide))

theorem steps_each (ss : List Step) : ∀ f g, runSteps f ss = (g, true) → ∀ s ∈ ss,
    ∃ f1 f2, Ext f f1 ∧ s.run f1 = (f2, true) ∧ Ext f2 g := by
  induction ss with
  | nil => intro f g _ s hs; cases hs
  | cons s ss ih =>
    intro f g h t ht
    simp only [runSteps] at h
    have he := step_ext f s
    cases hs : s.run f with
    | mk f2 b =>
      rw [hs] at h he
      cases b with
      | false => cases h
      | true =>
        simp only at h
        rcases List.mem_cons.mp ht with rfl | ht
        · refine ⟨f, f2, .refl f, hs, ?_⟩
          have := steps_ext ss f2
          rwa [h] at this
        · obtain ⟨a, b, h1, h2, h3⟩ := ih f2 g h t ht
          exact ⟨a, b, he.trans h1, h2, h3⟩

theorem mkdirs_true (xs : Path) : ∀ (f g : Disk) (pre : Path), mkdirs f pre xs = (g, true) →
    ∀ q, q ≠ [] → q <+: xs → g.get (pre ++ q) = some .dir := by
  induction xs with
  | nil => intro f g pre _ q hq hp; exact absurd (List.prefix_nil.mp hp) hq
  | cons x xs ih =>
    intro f g pre h q hq hp
    have key : ∀ f' : Disk, f'.get (pre ++ [x]) = some .dir → mkdirs f' (pre ++ [x]) xs = (g, true) →
        g.get (pre ++ q) = some .dir := by
      intro f' hx h
      cases q with
      | nil => exact absurd rfl hq
      | cons y q =>
        obtain ⟨rfl, hp'⟩ := List.cons_prefix_cons.mp hp
        by_cases hq : q = []
        · subst hq
          have := mkdirs_ext xs f' (pre ++ [y])
          rw [h] at this
          exact this _ _ hx
        · have := ih f' g _ h q hq hp'
          simpa using this
    simp only [mkdirs] at h
    cases hg : f.get (pre ++ [x]) with
    | none => rw [hg] at h; exact key _ (by simp [Dict.get_put]) h
    | some n =>
      rw [hg] at h
      cases n with
      | dir => exact key _ hg h
      | file t => cases h
      | link t => cases h

theorem place_true (f g : Disk) (p : Path) (n : Node) (h : place f p n = (g, true)) : g.get p = some n := by
  unfold place at h
  split at h
  · rw [← (Prod.mk.inj h).1, Dict.get_put, if_pos rfl]
  · simp at h

theorem readFile_ext (f g : Disk) (he : Ext f g) (p : Path) (t : Text) (h : readFile f p = some t) : readFile g p = some t := by
  unfold readFile at h ⊢
  cases hw : walk f 40 p with
  | none => rw [hw] at h; cases h
  | some q =>
    rw [hw] at h
    rw [walk_ext f g he 40 p q hw]
    simp only at h ⊢
    cases hg : f.get q with
    | none => rw [hg] at h; cases h
    | some n => rw [he _ _ hg]; rw [hg] at h; exact h

theorem readFile_at (g : Disk) (p : Path) (x : Text) (t : Text) (hb : ∀ q, q ≠ [] → q <+: p → g.get q = some .dir)
    (h : g.get (p ++ [x]) = some (.file t)) : present g (p ++ [x]) = true ∧ readFile g (p ++ [x]) = some t := by
  obtain ⟨next, _, _, e⟩ := walk_dirs g 40 p [x] hb
  have : walk g 40 (p ++ [x]) = some (p ++ [x]) := by rw [e]; simp only [walkWith, h]; rfl
  simp [present, readFile, this, h]

/-- C80 on Windows: if beside the interpreter there is a `python.exe` and making the environment succeeds, the directory is
an environment with a copy of it. -/
theorem create_windows_partial (f : Disk) (d : Path) (i : Interp) (t : Text) (hw : i.windows = true)
    (hp : readFile f (i.path.dropLast ++ [t!"python.exe"]) = some t) (hc : (create f d (some i)).2 = true) :
    isVenv (create f d (some i)).1 d = true ∧
      readFile (create f d (some i)).1 (d ++ [t!"Scripts", t!"python.exe"]) = some t := by
  have hr : create f d (some i) = runSteps f (steps d i) := by
    unfold create at hc ⊢
    by_cases h : present f d = true
    · rw [if_pos h] at hc; cases hc
    · rw [if_neg h]
  rw [hr] at hc ⊢
  generalize hg : runSteps f (steps d i) = r at hc ⊢
  obtain ⟨g, b⟩ := r
  simp only at hc
  subst hc
  have each := steps_each (steps d i) f g hg
  have hS : ∀ q, q ≠ [] → q <+: d ++ [t!"Scripts"] → g.get q = some .dir := by
    obtain ⟨f1, f2, _, h2, h3⟩ := each (.mkdir (d ++ [t!"Scripts"])) (by simp [steps, dirsOf, hw])
    intro q hq hp
    have := mkdirs_true _ f1 f2 [] h2 q hq hp
    exact h3 _ _ this
  have hD : ∀ q, q ≠ [] → q <+: d → g.get q = some .dir := fun q hq hp => hS q hq (hp.trans (List.prefix_append _ _))
  have hC : g.get (d ++ [t!"pyvenv.cfg"]) = some (.file (cfgText i)) := by
    obtain ⟨f1, f2, _, h2, h3⟩ := each (.put (d ++ [t!"pyvenv.cfg"]) (.file (cfgText i))) (by simp [steps])
    exact h3 _ _ (place_true _ _ _ _ h2)
  have hE : g.get (d ++ [t!"Scripts"] ++ [t!"python.exe"]) = some (.file t) := by
    obtain ⟨f1, f2, h1, h2, h3⟩ := each (.copyFound (i.path.dropLast ++ [t!"python.exe"]) (d ++ [t!"Scripts", t!"python.exe"]))
      (by simp [steps, hw, windowsFiles])
    have hr := readFile_ext f f1 h1 _ _ hp
    have hpr : present f1 (i.path.dropLast ++ [t!"python.exe"]) = true := by
      unfold readFile at hr
      unfold present
      cases hw : walk f1 40 (i.path.dropLast ++ [t!"python.exe"]) with
      | none => rw [hw] at hr; cases hr
      | some q => rfl
    simp only [Step.run, hpr, hr, if_true] at h2
    have := h3 _ _ (place_true _ _ _ _ h2)
    simpa using this
  have r1 := readFile_at g d _ _ hD hC
  have r2 := readFile_at g (d ++ [t!"Scripts"]) _ _ hS hE
  refine ⟨?_, by simpa using r2.2⟩
  have r2' : present g (d ++ [t!"Scripts", t!"python.exe"]) = true := by simpa using r2.1
  simp [isVenv, r1.1, r2']

example : isVenv (create ([([t!"py"], .dir), ([t!"py", t!"python.exe"], .file (t!"PE"))] : Disk) [t!"env"]
    (some ⟨[t!"py", t!"python.exe"], true, false, false, false, 3, 9, 7⟩)).1 [t!"env"] = true :=
  (create_windows_partial _ _ _ (t!"PE") rfl (by decide) (by decide)).1

/-- C80 on Windows: when making the environment succeeds, it has its configuration and its directories, and of the four
programs of a Python installation it has a copy of those that are beside the interpreter. -/
theorem create_windows_files_partial (f : Disk) (d : Path) (i : Interp) (hw : i.windows = true)
    (hc : (create f d (some i)).2 = true) :
    (create f d (some i)).1.get (d ++ [t!"pyvenv.cfg"]) = some (.file (venvConfig i)) ∧
    (∀ r ∈ [[t!"Scripts"], [t!"Include"], [t!"Lib"], [t!"Lib", t!"site-packages"]],
      (create f d (some i)).1.get (d ++ r) = some .dir) ∧
    (∀ n ∈ [t!"python.exe", t!"pythonw.exe", t!"python_d.exe", t!"pythonw_d.exe"], ∀ t,
      readFile f (i.path.dropLast ++ [n]) = some t →
      (create f d (some i)).1.get (d ++ [t!"Scripts", n]) = some (.file t)) := by
  have hr : create f d (some i) = runSteps f (steps d i) := by
    unfold create at hc ⊢
    by_cases h : present f d = true
    · rw [if_pos h] at hc; cases hc
    · rw [if_neg h]
  rw [hr] at hc ⊢
  generalize hg : runSteps f (steps d i) = r at hc ⊢
  obtain ⟨g, b⟩ := r
  simp only at hc
  subst hc
  have each := steps_each (steps d i) f g hg
  have hM : ∀ x ∈ [[t!"Scripts"], [t!"Include"], [t!"Lib", t!"site-packages"]], ∀ q, q ≠ [] → q <+: d ++ x →
      g.get q = some .dir := by
    intro x hx q hq hp
    obtain ⟨f1, f2, _, h2, h3⟩ := each (.mkdir (d ++ x)) (by
      simp only [List.mem_cons, List.not_mem_nil, or_false] at hx
      rcases hx with rfl | rfl | rfl <;> simp [steps, dirsOf, hw])
    exact h3 _ _ (mkdirs_true _ f1 f2 [] h2 q hq hp)
  refine ⟨?_, ?_, ?_⟩
  · obtain ⟨f1, f2, _, h2, h3⟩ := each (.put (d ++ [t!"pyvenv.cfg"]) (.file (cfgText i))) (by simp [steps])
    rw [← cfgText_config]
    exact h3 _ _ (place_true _ _ _ _ h2)
  · intro r hr
    simp only [List.mem_cons, List.not_mem_nil, or_false] at hr
    rcases hr with rfl | rfl | rfl | rfl
    · exact hM [t!"Scripts"] (by simp) _ (by simp) (List.prefix_refl _)
    · exact hM [t!"Include"] (by simp) _ (by simp) (List.prefix_refl _)
    · exact hM [t!"Lib", t!"site-packages"] (by simp) _ (by simp) ⟨[t!"site-packages"], by simp⟩
    · exact hM [t!"Lib", t!"site-packages"] (by simp) _ (by simp) (List.prefix_refl _)
  · intro n hn t ht
    obtain ⟨f1, f2, h1, h2, h3⟩ := each (.copyFound (i.path.dropLast ++ [n]) (d ++ [t!"Scripts", n]))
      (by
        simp only [List.mem_cons, List.not_mem_nil, or_false] at hn
        rcases hn with rfl | rfl | rfl | rfl <;> simp [steps, hw, windowsFiles])
    have hr := readFile_ext f f1 h1 _ _ ht
    have hpr : present f1 (i.path.dropLast ++ [n]) = true := by
      unfold readFile at hr
      unfold present
      cases hw : walk f1 40 (i.path.dropLast ++ [n]) with
      | none => rw [hw] at hr; cases hr
      | some q => rfl
    simp only [Step.run, hpr, hr, if_true] at h2
    exact h3 _ _ (place_true _ _ _ _ h2)

example : (create ([([t!"py"], .dir), ([t!"py", t!"python.exe"], .file (t!"PE"))] : Disk) [t!"env"]
    (some ⟨[t!"py", t!"python.exe"], true, false, false, false, 3, 9, 7⟩)).1.get [t!"env", t!"Scripts", t!"python.exe"]
      = some (.file (t!"PE")) :=
  (create_windows_files_partial _ _ _ rfl (by decide)).2.2 _ (by simp) _ (by decide)

/-- C80: a directory without `pyvenv.cfg`, or where there is nothing at all, is no environment. -/
theorem not_venv (f : Disk) (d : Path)
    (h : ((∀ q, q ≠ [] → q <+: d → f.get q = some .dir) ∧ f.get (d ++ [t!"pyvenv.cfg"]) = none) ∨
      (DiskTree f ∧ FreePath f d)) : isVenv f d = false := by
  have hp : present f (d ++ [t!"pyvenv.cfg"]) = false := by
    rcases h with ⟨h1, h2⟩ | ⟨ht, h⟩
    · exact not_present f d _ h1 h2
    · apply free_not_present
      have hn : f.get (d ++ [t!"pyvenv.cfg"]) = none := tree_below f ht d h.1 (by rw [h.2.1]; simp) _ (by simp)
      refine ⟨by simp, hn, ?_⟩
      intro q hq hp
      rcases prefix_append_cases q d _ hp with k | ⟨r, hr, hrx, rfl⟩
      · exact h.2.2 q hq k
      · rcases (prefix_one r _).mp hrx with rfl | rfl
        · exact absurd rfl hr
        · exact .inl hn
  simp [isVenv, hp]

example : isVenv sampleDisk [t!"home"] = false := not_venv _ _ (.inl ⟨by
  intro q hq hp
  rcases (prefix_one q _).mp hp with rfl | rfl
  · exact absurd rfl hq
  · decide, by decide⟩)

/-- C80: where `lib64` is made, a path through it leads to what is in `lib`. -/
theorem create_lib64 (f : Disk) (d : Path) (i : Interp) (ht : DiskTree f) (h : FreePath f d) (hw : i.windows = false)
    (hl : i.bits32 = false ∧ i.posix = true ∧ i.darwin = false) :
    walk (create f d (some i)).1 40 (d ++ [t!"lib64", t!"python" ++ (showNat i.major ++ '.' :: showNat i.minor), t!"site-packages"])
      = some (d ++ [t!"lib", t!"python" ++ (showNat i.major ++ '.' :: showNat i.minor), t!"site-packages"]) := by
  obtain ⟨g, e, hg⟩ := create_in f d i ht h hw
  rw [e]
  have h64 : g.get (d ++ [t!"lib64"]) = some (.link (d ++ [t!"lib"])) := by
    rw [hg.rel]; simp [venvFiles, Dict.get, hl.1, hl.2.1, hl.2.2]
  have hdirs : ∀ q, q ≠ [] → q <+: d ++ [t!"lib", t!"python" ++ (showNat i.major ++ '.' :: showNat i.minor), t!"site-packages"] →
      g.get q = some .dir := by
    refine in_dirs g d _ _ hg ?_
    intro r hr hp
    rcases (prefix_three r _ _ _).mp hp with rfl | rfl | rfl | rfl
    · exact absurd rfl hr
    · simp [venvFiles, Dict.get]
    · simp [venvFiles, Dict.get]
    · simp [venvFiles, Dict.get]
  obtain ⟨next, _, h2, e2⟩ := walk_dirs g 40 d [t!"lib64", t!"python" ++ (showNat i.major ++ '.' :: showNat i.minor), t!"site-packages"] hg.base
  rw [e2, h2 39 rfl]
  simp only [walkWith, h64]
  obtain ⟨next', _, _, e3⟩ := walk_dirs g 39 (d ++ [t!"lib", t!"python" ++ (showNat i.major ++ '.' :: showNat i.minor), t!"site-packages"]) [] hdirs
  simp only [List.append_nil, walkWith] at e3
  rw [← e3]
  simp

example : walk (create sampleDisk [t!"home", t!"env"] (some sampleInterp)).1 40
    [t!"home", t!"env", t!"lib64", t!"python3.9", t!"site-packages"] =
    some [t!"home", t!"env", t!"lib", t!"python3.9", t!"site-packages"] :=
  create_lib64 _ _ _ sample_tree sample_free rfl ⟨rfl, rfl, rfl⟩

/-! ### the configuration of the environment -/

theorem colon_strip (l : Text) (h : ':' ∈ l) : ':' ∈ Config.stripText l := by
  have drop : ∀ l : Text, ':' ∈ l → ':' ∈ l.dropWhile isSpace := by
    intro l
    induction l with
    | nil => intro h; exact h
    | cons c l ih =>
      intro h
      simp only [List.dropWhile_cons]
      split
      · rename_i hc
        rcases List.mem_cons.mp h with rfl | h
        · exact absurd hc (by decide)
        · exact ih h
      · exact h
  simp only [Config.stripText, Config.lstrip, List.mem_reverse]
  exact drop _ (by rw [List.mem_reverse]; exact drop _ h)

theorem splitAt_join (g : Char → Bool) (a b : Text) (c : Char) (ha : ∀ d ∈ a, g d = false) (hc : g c = true) :
    Config.splitAt g (a ++ c :: b) = a :: Config.splitAt g b := Config.splitAt_append g a c b ha hc

theorem line_key (k v : Text) (hk : '=' ∉ k) : ':' ∈ (Config.writeLine (k, v)).takeWhile (· ≠ '=') := by
  have : (Config.writeLine (k, v)).takeWhile (· ≠ '=') = k ++ (':' :: ' ' :: v).takeWhile (· ≠ '=') := by
    simp only [Config.writeLine]
    rw [List.takeWhile_append_of_pos]
    intro c hc
    simp only [decide_not, Bool.not_eq_eq_eq_not, Bool.not_true, decide_eq_false_iff_not]
    rintro rfl; exact hk hc
  rw [this]
  simp [List.takeWhile_cons]

/-- C80 fails for every interpreter whose directory has a name on one line: Python does not find the key `home`, by which
it knows that it is in an environment (PEP 405), and no key that keeps the packages of the system out. -/
theorem environment_home_violated (i : Interp) (hn : ∀ c ∈ programDir i.path, Config.isBreak c = false) :
    t!"home" ∉ pyvenvKeys (venvConfig i) ∧ t!"include-system-site-packages" ∉ pyvenvKeys (venvConfig i) := by
  rw [← homeText_dir] at hn
  rw [← cfgText_config]
  have hv : ∀ c ∈ showNat i.major ++ '.' :: (showNat i.minor ++ '.' :: showNat i.micro), Config.isBreak c = false := by
    have hd : ∀ n, ∀ c ∈ showNat n, Config.isBreak c = false := by
      intro n c hc
      have := showNat_digits n c hc
      simp only [isDigit, Bool.and_eq_true, decide_eq_true_eq] at this
      simp only [Config.isBreak, Bool.or_eq_false_iff, Bool.and_eq_false_iff, decide_eq_false_iff_not]
      have h1 : (48 : Nat) ≤ c.toNat := by
        have := this.1
        first | exact this | (simpa using this)
      omega
    intro c hc
    simp only [List.mem_append, List.mem_cons] at hc
    rcases hc with h | rfl | h | rfl | h
    · exact hd _ _ h
    · decide
    · exact hd _ _ h
    · decide
    · exact hd _ _ h
  have hl : ∀ k v : Text, (∀ c ∈ k, Config.isBreak c = false) → (∀ c ∈ v, Config.isBreak c = false) →
      ∀ c ∈ Config.writeLine (k, v), Config.isBreak c = false := by
    intro k v h1 h2 c hc
    simp only [Config.writeLine, List.mem_append, List.mem_cons] at hc
    rcases hc with h | rfl | rfl | h
    · exact h1 c h
    · decide
    · decide
    · exact h2 c h
  have e : Config.splitAt Config.isBreak (cfgText i) = [Config.writeLine (t!"home", homeText i),
      Config.writeLine (t!"version", showNat i.major ++ '.' :: (showNat i.minor ++ '.' :: showNat i.micro)),
      Config.writeLine (t!"include-system-site-packages", t!"false")] := by
    simp only [cfgText, Config.writeWheel]
    rw [splitAt_join _ _ _ _ (hl _ _ (by decide) hn) (by decide), splitAt_join _ _ _ _ (hl _ _ (by decide) hv) (by decide)]
    rw [Config.splitAt_none]
    exact hl _ _ (by decide) (by decide)
  have hall : ∀ k ∈ pyvenvKeys (cfgText i), ':' ∈ k := by
    intro k hk
    simp only [pyvenvKeys, e, List.mem_map, List.mem_filter] at hk
    obtain ⟨l, ⟨hm, _⟩, rfl⟩ := hk
    simp only [List.mem_map]
    refine ⟨':', ?_, by decide⟩
    apply colon_strip
    simp only [List.mem_cons, List.not_mem_nil, or_false] at hm
    rcases hm with rfl | rfl | rfl <;> exact line_key _ _ (by decide)
  exact ⟨fun h => by have := hall _ h; revert this; decide, fun h => by have := hall _ h; revert this; decide⟩

example : t!"home" ∈ pyvenvKeys (t!"home = /usr/bin\ninclude-system-site-packages = false") := by decide

end EnvBuild
end Pkm
