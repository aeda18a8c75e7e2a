import Verif.Files.WheelInstallFailure
set_option linter.unusedVariables false
set_option linter.unusedSimpArgs false
/-
C96: a wheel that meets the hypotheses of the theorems, and violations.
-/
namespace Pkm
open Tags Files Files.FS WheelInstall Spec

namespace WheelInstall.Example

/-- Contents of files: texts, by a number, and RECORD files. -/
inductive Ct where
  | num (n : Nat)
  | lines (l : List (Nat × Text))
  deriving DecidableEq

def code : Ct → Nat
  | .num n => n
  | .lines _ => 0

def toRec (x : Nat × Text) : Rec Nat := ⟨x.2, if x.1 = 0 then none else some (x.1 - 1)⟩
def ofRec (r : Rec Nat) : Nat × Text := (match r.sig with
  | none => 0
  | some s => s + 1, r.file)

theorem toRec_ofRec (r : Rec Nat) : toRec (ofRec r) = r := by
  cases r with
  | mk f s => cases s <;> simp [toRec, ofRec]

def fm : Formats Ct Nat where
  wheel c := if c = .num 1 then some ⟨some [1, 0], true⟩ else if c = .num 2 then some ⟨some [1], true⟩ else none
  entries c := if c = .num 3 then some [⟨t!"tool", true, some (.num 50)⟩]
    else if c = .num 4 then some [⟨t!"tool", true, some (.num 50)⟩, ⟨t!"bad", true, none⟩] else none
  readRecord c := match c with
    | .lines l => some (l.map toRec)
    | .num _ => none
  writeRecord l := .lines (l.map ofRec)
  installer := .num 7

theorem reads_back (l : List (Rec Nat)) : fm.readRecord (fm.writeRecord l) = some l := by
  have : toRec ∘ ofRec = id := funext toRec_ofRec
  simp [fm, this]

def tl : Tools Ct Nat where
  hash := code
  valid s c := some (s == code c)
  patch c := .num (code c + 1000)
  comp _ c := some (.num (code c + 500))
  tag := t!"cp39"
  order l := l
  empty := .num 0

def tg : Target := ⟨[t!"lib"], [t!"lib"], [t!"inc"], [t!"site"], [t!"site"], [t!"inc"], [], [t!"bin"]⟩

def recs : List (Nat × Text) := [(11, t!"p/a.py"), (21, t!"p-1.data/scripts/run"), (2, t!"p-1.dist-info/WHEEL"),
  (4, t!"p-1.dist-info/entry_points.txt"), (31, t!"p-1.data/headers/p.h"), (0, t!"p-1.dist-info/RECORD")]

def info (wheel entries : Nat) : Source Ct :=
  .dir (.cons t!"WHEEL" (.file (.num wheel)) (.cons t!"entry_points.txt" (.file (.num entries)) (.cons t!"RECORD" (.file (.lines recs)) .nil)))

/-- A module, a script and an entry point. -/
def tree (wheel entries : Nat) : Sources Ct :=
  .cons t!"p" (.dir (.cons t!"a.py" (.file (.num 10)) .nil))
    (.cons t!"p-1.data" (.dir (.cons t!"scripts" (.dir (.cons t!"run" (.file (.num 20)) .nil)) .nil))
      (.cons t!"p-1.dist-info" (info wheel entries) .nil))

/-- The same with headers. -/
def treeH : Sources Ct :=
  .cons t!"p-1.data" (.dir (.cons t!"headers" (.dir (.cons t!"p.h" (.file (.num 30)) .nil)) .nil)) (.cons t!"p-1.dist-info" (info 1 3) .nil)

/-- A wheel of modules only. -/
def treeP : Sources Ct :=
  .cons t!"p" (.dir (.cons t!"a.py" (.file (.num 10)) .nil))
    (.cons t!"p-1.dist-info" (.dir (.cons t!"WHEEL" (.file (.num 1)) (.cons t!"RECORD" (.file (.lines recs)) .nil))) .nil)

theorem distinct_tree (w e : Nat) : Distinct (tree w e) := by
  simp only [tree, info, Distinct, names]; decide
theorem distinct_treeH : Distinct treeH := by
  simp only [treeH, info, Distinct, names]; decide
theorem distinct_treeP : Distinct treeP := by
  simp only [treeP, Distinct, names]; decide

def tool : List (Entry Ct) := [⟨t!"tool", true, some (.num 50)⟩]

def ext : Text := t!".dist-info"

theorem says {t : Sources Ct} (hd : Distinct t) {ch : Checked Ct Nat} (h : check fm tl [t!"tmp"] t = .ok ch) (he : ch.distInfo = t!"p-1" ++ t!".dist-info") :
    WheelSays fm t t!"p-1" ch.purelib ch.entries ch.records := by
  obtain ⟨stem, e1, _, e3, _⟩ := check_ok hd h
  have : stem = t!"p-1" := by
    rw [e1, distInfoExt_eq] at he
    exact List.append_cancel_right he
  subst this
  exact e3

theorem says_tree : WheelSays fm (tree 1 3) t!"p-1" true tool (recs.map toRec) :=
  says (distinct_tree 1 3) (ch := ⟨t!"p-1.dist-info", true, tool, prune (tree 1 3), recs.map toRec⟩) (by rfl) rfl
theorem says_treeH : WheelSays fm treeH t!"p-1" true tool (recs.map toRec) :=
  says distinct_treeH (ch := ⟨t!"p-1.dist-info", true, tool, prune treeH, recs.map toRec⟩) (by rfl) rfl
theorem says_treeP : WheelSays fm treeP t!"p-1" true [] (recs.map toRec) :=
  says distinct_treeP (ch := ⟨t!"p-1.dist-info", true, [], prune treeP, recs.map toRec⟩) (by rfl) rfl

/-- A check that a file system is a tree. -/
def goodCheck {C : Type} [DecidableEq C] (fs : FS C) : Bool :=
  fs.all (fun e => match e.1 with
    | [] => true
    | _ :: p => decide (Dict.get fs p = some .dir)) &&
  decide (Dict.get fs [] = some .dir) && decide (Dict.keys fs).Nodup

theorem good_of_check {C : Type} [DecidableEq C] {fs : FS C} (h : goodCheck fs = true) : Good fs := by
  unfold goodCheck at h
  simp only [Bool.and_eq_true, decide_eq_true_eq] at h
  refine ⟨?_, h.1.2, h.2⟩
  intro x p n hx
  have := List.all_eq_true.1 h.1.1 _ (Dict.get_mem _ _ _ hx)
  simpa using this

def fs0 : FS Ct := [([], .dir), ([t!"site"], .dir), ([t!"mine", t!"site"], .file (.num 77))]
theorem good0 : Good fs0 := good_of_check (by decide +kernel)

def out : FS Ct × Option WErr := install fm tl tg [t!"tmp"] (tree 1 3) (some (.num 8)) (.num 9) fs0

theorem out_ok : install fm tl tg [t!"tmp"] (tree 1 3) (some (.num 8)) (.num 9) fs0 = (out.1, none) := by
  have : out.2 = none := by decide +kernel
  rw [← this]; rfl

/-- Every name in a tree is a name of a file. -/
def AllNames {C : Type} : Sources C → Prop
  | .nil => True
  | .cons n (.file _) rest => ValidName n ∧ AllNames rest
  | .cons n (.dir es) rest => ValidName n ∧ AllNames es ∧ AllNames rest

theorem allNames_file {C : Type} {t : Sources C} {r : Path} {c : C} (h : FileIn t r c) (ha : AllNames t) : ∀ n ∈ r, ValidName n := by
  induction h with
  | file => rw [AllNames] at ha; simpa using ha.1
  | dir _ ih =>
    rw [AllNames] at ha
    intro n hn
    rcases List.mem_append.1 hn with hn | hn
    · exact ih ha.2.1 n hn
    · rw [List.mem_singleton.1 hn]; exact ha.1
  | @later n s rest r c _ ih =>
    apply ih
    cases s with
    | file _ => rw [AllNames] at ha; exact ha.2
    | dir _ => rw [AllNames] at ha; exact ha.2.2

theorem allNames_dir {C : Type} {t : Sources C} {r : Path} (h : DirIn t r) (ha : AllNames t) : ∀ n ∈ r, ValidName n := by
  induction h with
  | here => rw [AllNames] at ha; simpa using ha.1
  | dir _ ih =>
    rw [AllNames] at ha
    intro n hn
    rcases List.mem_append.1 hn with hn | hn
    · exact ih ha.2.1 n hn
    · rw [List.mem_singleton.1 hn]; exact ha.1
  | @later n s rest r _ ih =>
    apply ih
    cases s with
    | file _ => rw [AllNames] at ha; exact ha.2
    | dir _ => rw [AllNames] at ha; exact ha.2.2

theorem allNames_tree : AllNames (tree 1 3) := by
  simp [tree, info, AllNames, ValidName]

theorem kind_names {k : Text} {q : Path} (h : KindPlace tg k q) : ∀ n ∈ q, ValidName n := by
  unfold KindPlace at h
  simp only [tg, List.mem_cons, Prod.mk.injEq, List.not_mem_nil, or_false] at h
  have hv : ValidName t!"lib" ∧ ValidName t!"inc" ∧ ValidName t!"site" ∧ ValidName t!"bin" := by unfold ValidName; decide
  intro n hn
  rcases h with h | h | h | h | h | h | h | h <;> (rw [h.2] at hn; simp at hn) <;> (subst hn) <;> simp [hv]

theorem names_ok : ∀ p, Brings tg tl.patch (siteOf tg true) t!"p-1" (tree 1 3) tool p ∨ Makes tg (siteOf tg true) t!"p-1" (tree 1 3) p →
    ∀ c ∈ p, ValidName c := by
  have hsite : ∀ n ∈ siteOf tg true, ValidName n := kind_names (k := t!"purelib") (by unfold KindPlace; simp [siteOf, tg])
  have hbin : ∀ n ∈ tg.scripts, ValidName n := kind_names (k := t!"scripts") (by unfold KindPlace; simp [tg])
  have app : ∀ (a b : Path), (∀ n ∈ a, ValidName n) → (∀ n ∈ b, ValidName n) → ∀ n ∈ a ++ b, ValidName n := by
    intro a b h1 h2 n hn
    rcases List.mem_append.1 hn with h | h
    · exact h1 n h
    · exact h2 n h
  intro p hp
  rcases hp with (⟨c, hp⟩ | ⟨e, he, _, rfl⟩) | hp
  · cases hp with
    | plain a _ _ => exact app _ _ (allNames_file a allNames_tree) hsite
    | data a _ k _ =>
      exact app _ _ (fun n hn => allNames_file a allNames_tree n (List.mem_append.2 (.inl hn))) (kind_names k)
    | @script n c a =>
      refine app [n] _ (fun m hm => allNames_file a allNames_tree m ?_) hbin
      rw [List.mem_singleton.1 hm]; simp
  · simp only [tool, List.mem_singleton] at he
    subst he
    exact app [t!"tool"] _ (by unfold ValidName; decide) hbin
  · cases hp with
    | plain a _ => exact app _ _ (allNames_dir a allNames_tree) hsite
    | data a k => exact app _ _ (fun n hn => allNames_dir a allNames_tree n (List.mem_append.2 (.inl hn))) (kind_names k)

/-- The files of the example wheel. -/
theorem files_tree {r : Path} {c : Ct} (h : FileIn (tree 1 3) r c) : (r, c) ∈ filesOf [] (tree 1 3) :=
  (filesOf_mem _ _ _ _).2 ⟨r, h, by simp⟩

/-- What the example brings. -/
theorem brings_tree {p : Path} (h : Brings tg tl.patch (siteOf tg true) t!"p-1" (tree 1 3) tool p) :
    p ∈ [[t!"a.py", t!"p", t!"site"], [t!"run", t!"bin"], [t!"WHEEL", t!"p-1.dist-info", t!"site"],
      [t!"entry_points.txt", t!"p-1.dist-info", t!"site"], [t!"tool", t!"bin"]] := by
  rcases h with ⟨c, h⟩ | ⟨e, he, _, rfl⟩
  · cases h with
    | @plain r _ a b d =>
      have := files_tree a
      simp only [filesOf, tree, info, List.mem_cons, List.mem_append, List.not_mem_nil, or_false, Prod.mk.injEq, false_or, List.nil_append, List.cons_append] at this
      rcases this with ⟨rfl, _⟩ | ⟨rfl, _⟩ | ⟨rfl, _⟩ | ⟨rfl, _⟩ | ⟨rfl, _⟩
      · decide
      · exact absurd b (by decide)
      · decide
      · decide
      · exact absurd d (by decide)
    | @data r k q _ a b kp hk =>
      have := files_tree a
      simp only [filesOf, tree, info, List.mem_cons, List.mem_append, List.not_mem_nil, or_false, Prod.mk.injEq, false_or, List.nil_append, List.cons_append] at this
      have key : ∀ (x y z : Text), r ++ [k, t!"p-1" ++ t!".data"] = [x, y, z] → r = [x] ∧ k = y ∧ t!"p-1" ++ t!".data" = z := by
        intro x y z e
        have e' : r ++ [k, t!"p-1" ++ t!".data"] = [x] ++ [y, z] := e
        have := List.append_inj' e' rfl
        simpa using this
      have key2 : ∀ (x y : Text), r ++ [k, t!"p-1" ++ t!".data"] = [x, y] → t!"p-1" ++ t!".data" = y := by
        intro x y e
        have e' : (r ++ [k]) ++ [t!"p-1" ++ t!".data"] = [x] ++ [y] := by rw [List.append_assoc]; exact e
        exact (append_singleton_inj e').2
      rcases this with ⟨e, _⟩ | ⟨e, _⟩ | ⟨e, _⟩ | ⟨e, _⟩ | ⟨e, _⟩
      · exact absurd (key2 _ _ e) (by decide)
      · obtain ⟨rfl, rfl, _⟩ := key _ _ _ e
        rcases hk with hk | hk
        · exact absurd rfl hk
        · exact absurd rfl hk
      · exact absurd (key2 _ _ e) (by decide)
      · exact absurd (key2 _ _ e) (by decide)
      · exact absurd (key2 _ _ e) (by decide)
    | @script n c a =>
      have := files_tree a
      simp only [filesOf, tree, info, List.mem_cons, List.mem_append, List.not_mem_nil, or_false, Prod.mk.injEq, false_or, List.nil_append, List.cons_append,
        List.cons.injEq] at this
      rcases this with ⟨e, _⟩ | ⟨e, _⟩ | ⟨e, _⟩ | ⟨e, _⟩ | ⟨e, _⟩
      · exact absurd e.2.2 (by decide)
      · rw [e.1]; decide
      · exact absurd e.2.2 (by decide)
      · exact absurd e.2.2 (by decide)
      · exact absurd e.2.2 (by decide)
  · simp only [tool, List.mem_singleton] at he
    subst he
    decide

theorem not_brings_info (p : Path) (h : InfoFile (siteOf tg true) t!"p-1" p) : ¬ Brings tg tl.patch (siteOf tg true) t!"p-1" (tree 1 3) tool p := by
  intro hb
  have := brings_tree hb
  obtain ⟨n, hn, rfl⟩ := h
  simp only [List.mem_cons, List.not_mem_nil, or_false] at hn
  rcases hn with rfl | rfl | rfl | rfl <;> exact absurd this (by decide)

end WheelInstall.Example

open WheelInstall.Example

/-! ### the hypotheses are met -/

/-- A wheel is installed. -/
example : out.2 = none ∧
    Dict.get out.1 [t!"a.py", t!"p", t!"site"] = some (.file (.num 10)) ∧
    Dict.get out.1 [t!"run", t!"bin"] = some (.file (.num 1020)) ∧
    Dict.get out.1 [t!"tool", t!"bin"] = some (.file (.num 50)) ∧
    Dict.get out.1 [t!"a.cp39.pyc", t!"__pycache__", t!"p", t!"site"] = some (.file (.num 510)) ∧
    Dict.get out.1 [t!"REQUESTED", t!"p-1.dist-info", t!"site"] = some (.file (.num 8)) ∧
    Dict.get out.1 [t!"mine", t!"site"] = some (.file (.num 77)) := by decide +kernel

/-- Every file of it is signed. -/
example := wheel_accepted fm tl tg [t!"tmp"] (tree 1 3) (some (.num 8)) (.num 9) fs0 out.1 (distinct_tree 1 3) out_ok

/-- A wheel without dist-info is refused. -/
example : ¬ ∃ stem purelib entries records, WheelSays fm (.nil : Sources Ct) stem purelib entries records := by
  rintro ⟨_, _, _, _, h⟩
  cases h.info

/-- The script goes to its place. -/
example : Puts tg tl.patch (siteOf tg true) t!"p-1" (tree 1 3) [t!"run", t!"bin"] (Ct.num 1020) :=
  .script (n := t!"run") (c := Ct.num 20) (.later (.dir (r := [t!"run", t!"scripts"]) (.dir (r := [t!"run"]) .file)))

/-- The module goes to its place, and nothing else. -/
example : Dict.get out.1 [t!"a.py", t!"p", t!"site"] = some (.file (.num 10)) := by
  have hp : Puts tg tl.patch (siteOf tg true) t!"p-1" (tree 1 3) [t!"a.py", t!"p", t!"site"] (.num 10) :=
    .plain (r := [t!"a.py", t!"p"]) (.dir (r := [t!"a.py"]) .file) (.inl (by decide)) (by decide)
  refine wheel_puts fm tl tg [t!"tmp"] (tree 1 3) (some (.num 8)) (.num 9) fs0 out.1 t!"p-1" true tool _ good0 (distinct_tree 1 3) (fun _ _ => Iff.rfl)
    says_tree out_ok _ _ hp ?_ ?_ ?_ ?_
  · intro q d hq hs
    have hq1 := brings_tree (.inl ⟨d, hq⟩)
    have hqe : q = [t!"a.py", t!"p", t!"site"] := by
      simp only [List.mem_cons, List.not_mem_nil, or_false] at hq1
      rcases hq1 with rfl | rfl | rfl | rfl | rfl
      · rfl
      all_goals exact absurd hs (by decide)
    refine ⟨hqe, ?_⟩
    subst hqe
    generalize hx : [t!"a.py", t!"p", t!"site"] = x at hq
    cases hq with
    | @plain r _ a b c =>
      have hr : r = [t!"a.py", t!"p"] := by
        have : r ++ siteOf tg true = [t!"a.py", t!"p"] ++ siteOf tg true := hx.symm
        exact List.append_cancel_right this
      subst hr
      exact fileIn_det _ (distinct_tree 1 3) _ _ _ a (.dir (r := [t!"a.py"]) .file)
    | @data r k pl _ a b c hk =>
      have := files_tree a
      have hl := fileIn_names (tree 1 3) (r ++ [k]) (t!"p-1" ++ t!".data") d (by simpa using a)
      have h3 : k = t!"scripts" ∧ ∃ x, r = [x] := by
        simp only [filesOf, tree, info, List.mem_cons, List.mem_append, List.not_mem_nil, or_false, Prod.mk.injEq, false_or, List.nil_append, List.cons_append] at this
        rcases this with ⟨e, _⟩ | ⟨e, _⟩ | ⟨e, _⟩ | ⟨e, _⟩ | ⟨e, _⟩
        · exact absurd (congrArg List.getLast? e) (by simp)
        · have e' : r ++ [k, t!"p-1" ++ t!".data"] = [t!"run"] ++ [t!"scripts", t!"p-1.data"] := e
          have := List.append_inj' e' rfl
          simp only [List.cons.injEq, and_true] at this
          exact ⟨this.2.1, _, this.1⟩
        · exact absurd (congrArg List.getLast? e) (by simp)
        · exact absurd (congrArg List.getLast? e) (by simp)
        · exact absurd (congrArg List.getLast? e) (by simp)
      obtain ⟨rfl, x, rfl⟩ := h3
      rcases hk with hk | hk
      · exact absurd rfl hk
      · exact absurd rfl hk
    | script a => exact absurd hx (by simp [tg])
  · rintro ⟨e, he, _, h⟩
    simp only [tool, List.mem_singleton] at he
    subst he
    exact absurd h (by decide)
  · intro q hq hpyc
    exact pycOf_not_py tl.tag q _ (by decide) ((pyc_iff _ _ _).1 hpyc).2.symm
  · rintro ⟨n, hn, h⟩
    exact absurd (List.cons.inj (List.cons.inj h).2).1 (by decide)

example : LastScript tool t!"tool" (Ct.num 50) := ⟨[], [], rfl, by simp⟩

example : Pyc tl.tag [t!"a.py", t!"p", t!"site"] [t!"a.cp39.pyc", t!"__pycache__", t!"p", t!"site"] := ⟨t!"a", [t!"p", t!"site"], by decide, rfl, rfl⟩

/-- RECORD of the example. -/
example := wheel_record fm tl tg [t!"tmp"] (tree 1 3) (some (.num 8)) (.num 9) fs0 out.1 t!"p-1" true tool _ good0 (distinct_tree 1 3) (fun _ _ => Iff.rfl)
  says_tree out_ok (by decide +kernel) (not_brings_info _ ⟨t!"RECORD", by simp, rfl⟩) names_ok (by decide)

example : Dict.get out.1 [t!"RECORD", t!"p-1.dist-info", t!"site"] = some (.file (.lines [(11, t!"p/a.py"), (21 + 1000, t!"../bin/run"),
    (2, t!"p-1.dist-info/WHEEL"), (4, t!"p-1.dist-info/entry_points.txt"), (51, t!"../bin/tool"), (511, t!"p/__pycache__/a.cp39.pyc")])) := by
  decide +kernel

example := wheel_information_unrecorded_violated fm tl tg [t!"tmp"] (tree 1 3) (some (.num 8)) (.num 9) fs0 out.1 t!"p-1" true tool _ good0
  (distinct_tree 1 3) (fun _ _ => Iff.rfl) says_tree out_ok (by decide +kernel) names_ok (by decide) not_brings_info

/-- The example is uninstalled. -/
example : (uninstall (fun _ => 0) [t!"p-1.dist-info", t!"site"] [t!"p/a.py", t!"../bin/run", t!"p-1.dist-info/WHEEL",
    t!"p-1.dist-info/entry_points.txt", t!"../bin/tool", t!"p/__pycache__/a.cp39.pyc"] out.1).map (fun fs => fs.filter (fun e => e.2 ≠ .dir)) =
    some [([t!"mine", t!"site"], .file (.num 77))] := by decide +kernel

example : FileIn treeH ([t!"p.h"] ++ [t!"headers", t!"p-1" ++ t!".data"]) (.num 30) :=
  .dir (r := [t!"p.h", t!"headers"]) (.dir (r := [t!"p.h"]) .file)

example : (install fm tl tg [t!"tmp"] treeH none (.num 9) fs0).2 = some .inside ∧
    (install fm tl tg [t!"tmp"] (tree 2 3) none (.num 9) fs0).2 = some .index := by decide +kernel

/-- A failure that is rolled back: a file is where a directory of the wheel belongs. -/
example : (install fm tl tg [t!"tmp"] treeP none (.num 9) [([], .dir), ([t!"site"], .dir), ([t!"p", t!"site"], .file (.num 5))]).2 = some .inside := by
  decide +kernel

example : ¬ DirIn treeP [t!"p-1" ++ t!".data"] ∧ ∀ c, ¬ FileIn treeP [t!"p-1" ++ t!".data"] c :=
  ⟨fun h => absurd (dirIn_names _ [] _ h) (by decide), fun c h => absurd (fileIn_names _ [] _ c h) (by decide)⟩

/-! ### violations -/

/-- C96, violated: a file of another package is overwritten without a word. -/
theorem wheel_overwrites_violated : ∃ (fs : FS Ct), Good fs ∧
    Dict.get fs [t!"RECORD", t!"q-1.dist-info", t!"site"] = some (.file (.lines [(100, t!"p/a.py")])) ∧
    Dict.get fs [t!"a.py", t!"p", t!"site"] = some (.file (.num 99)) ∧
    (install fm tl tg [t!"tmp"] (tree 1 3) none (.num 9) fs).2 = none ∧
    Dict.get (install fm tl tg [t!"tmp"] (tree 1 3) none (.num 9) fs).1 [t!"a.py", t!"p", t!"site"] = some (.file (.num 10)) := by
  refine ⟨[([], .dir), ([t!"site"], .dir), ([t!"p", t!"site"], .dir), ([t!"a.py", t!"p", t!"site"], .file (.num 99)),
    ([t!"q-1.dist-info", t!"site"], .dir), ([t!"RECORD", t!"q-1.dist-info", t!"site"], .file (.lines [(100, t!"p/a.py")]))],
    good_of_check (by decide +kernel), ?_⟩
  decide +kernel

/-- C96, violated: installing a wheel again records every file twice. -/
theorem wheel_again_violated : ∃ l : List (Nat × Text), l.length = 6 ∧
    Dict.get out.1 [t!"RECORD", t!"p-1.dist-info", t!"site"] = some (.file (.lines l)) ∧
    (install fm tl tg [t!"tmp"] (tree 1 3) none (.num 9) out.1).2 = none ∧
    Dict.get (install fm tl tg [t!"tmp"] (tree 1 3) none (.num 9) out.1).1 [t!"RECORD", t!"p-1.dist-info", t!"site"] = some (.file (.lines (l ++ l))) := by
  refine ⟨[(11, t!"p/a.py"), (21 + 1000, t!"../bin/run"),
    (2, t!"p-1.dist-info/WHEEL"), (4, t!"p-1.dist-info/entry_points.txt"), (51, t!"../bin/tool"), (511, t!"p/__pycache__/a.cp39.pyc")], ?_⟩
  decide +kernel

/-- C96, violated: a failing installation loses a script of the environment: launchers are written past the transaction, and
are removed by the rollback. -/
theorem wheel_rollback_violated : ∃ (fs : FS Ct), Good fs ∧ Dict.get fs [t!"tool", t!"bin"] = some (.file (.num 99)) ∧
    (install fm tl tg [t!"tmp"] (tree 1 4) none (.num 9) fs).2 = some .inside ∧
    Dict.get (install fm tl tg [t!"tmp"] (tree 1 4) none (.num 9) fs).1 [t!"tool", t!"bin"] = none := by
  refine ⟨[([], .dir), ([t!"site"], .dir), ([t!"bin"], .dir), ([t!"tool", t!"bin"], .file (.num 99))], good_of_check (by decide +kernel), ?_⟩
  decide +kernel

end Pkm
