import Verif.Cli.NewCommand
import Verif.Cli.TasksProps
/-
The templates that `pkm new` offers (C113).
-/
set_option linter.unusedVariables false
set_option linter.unusedSimpArgs false
namespace Pkm

/-! ### specification -/
namespace Spec
open Pkm.Templates Pkm.Tasks

/-- Is there a file or directory with this path below the directory? -/
def BelowIn : Tree → List Text → Prop
  | .nil, _ => False
  | .file n _ rest, p => p = [n] ∨ BelowIn rest p
  | .dir n cs rest, p => (∃ q, p = n :: q ∧ (q = [] ∨ BelowIn cs q)) ∨ BelowIn rest p

/-- The names in a directory differ. -/
def OwnEntries : Tree → Prop
  | .nil => True
  | .file n _ rest => ¬ BelowIn rest [n] ∧ OwnEntries rest
  | .dir n cs rest => ¬ BelowIn rest [n] ∧ OwnEntries cs ∧ OwnEntries rest

/-- A template: a directory with a `render.py`. -/
def TemplateAt (t : Tree) (p : List Text) : Prop := BelowIn t (p ++ [t!"render.py"])

/-- A template that is not part of another one. -/
def OuterTemplate (t : Tree) (p : List Text) : Prop := TemplateAt t p ∧ ∀ q, q <+: p → q ≠ p → ¬ TemplateAt t q

end Spec

namespace NewCommand
open Spec Templates Tasks

/-- Is there a file or directory of the name in the directory itself? -/
def hasOf (r : Text) : Tree → Bool
  | .nil => false
  | .file n _ rest => decide (n = r) || hasOf r rest
  | .dir n _ rest => decide (n = r) || hasOf r rest

theorem hasOf_iff (r : Text) (t : Tree) : hasOf r t = true ↔ BelowIn t [r] := by
  induction t with
  | nil => simp [hasOf, BelowIn]
  | file n x rest ih =>
    simp only [hasOf, BelowIn, Bool.or_eq_true, decide_eq_true_eq, ih, List.cons.injEq, and_true]
    exact or_congr ⟨Eq.symm, Eq.symm⟩ Iff.rfl
  | dir n cs rest _ ih =>
    simp only [hasOf, BelowIn, Bool.or_eq_true, decide_eq_true_eq, ih]
    constructor
    · rintro (h | h)
      · exact Or.inl ⟨[], by rw [h], Or.inl rfl⟩
      · exact Or.inr h
    · rintro (⟨q, h, -⟩ | h)
      · simp only [List.cons.injEq] at h; exact Or.inl h.1.symm
      · exact Or.inr h

/-- Is there a `render.py` in the directory itself? -/
abbrev has (t : Tree) : Bool := hasOf renderFile t

theorem has_iff (t : Tree) : has t = true ↔ TemplateAt t [] := hasOf_iff renderFile t

theorem has_false {t : Tree} (h : has t = false) : ¬ TemplateAt t [] := by
  rw [← has_iff, h]; simp

theorem findIn_has (t : Tree) (ns : List Text) (acc : List (List Text)) (h : has t = true) : findIn t ns acc = [ns] := by
  induction t generalizing acc with
  | nil => simp [hasOf] at h
  | file n x rest ih =>
    simp only [has, hasOf, Bool.or_eq_true, decide_eq_true_eq] at h
    unfold findIn
    split
    · rfl
    · rename_i hn; exact ih acc (h.resolve_left hn)
  | dir n cs rest _ ih =>
    simp only [has, hasOf, Bool.or_eq_true, decide_eq_true_eq] at h
    unfold findIn
    split
    · rfl
    · rename_i hn; exact ih _ (h.resolve_left hn)

/-- The found paths, without the namespace. -/
def outer : Tree → List (List Text)
  | .nil => []
  | .file _ _ rest => outer rest
  | .dir n cs rest => (if has cs then [[n]] else (outer cs).map (n :: ·)) ++ outer rest

theorem findIn_outer (t : Tree) (ns : List Text) (acc : List (List Text)) (h : has t = false) :
    findIn t ns acc = acc ++ (outer t).map (ns ++ ·) := by
  induction t generalizing ns acc with
  | nil => simp [findIn, outer]
  | file n x rest ih =>
    simp only [has, hasOf, Bool.or_eq_false_iff, decide_eq_false_iff_not] at h
    unfold findIn
    rw [if_neg h.1, ih ns acc h.2, outer]
  | dir n cs rest ihc ih =>
    simp only [has, hasOf, Bool.or_eq_false_iff, decide_eq_false_iff_not] at h
    unfold findIn
    rw [if_neg h.1, ih ns _ h.2, outer]
    cases hc : has cs with
    | true => rw [findIn_has cs _ _ hc]; simp
    | false => rw [ihc (ns ++ [n]) [] hc]; simp [List.map_map, Function.comp_def]

theorem below_head {t : Tree} {n : Text} {q : List Text} (h : BelowIn t (n :: q)) : BelowIn t [n] := by
  induction t with
  | nil => exact h
  | file m x rest ih =>
    rcases h with h | h
    · simp only [List.cons.injEq] at h; exact Or.inl (by rw [h.1])
    · exact Or.inr (ih h)
  | dir m cs rest _ ih =>
    rcases h with ⟨r, h, -⟩ | h
    · simp only [List.cons.injEq] at h; exact Or.inl ⟨[], by rw [h.1], Or.inl rfl⟩
    · exact Or.inr (ih h)

theorem at_dir_same {n : Text} {cs rest : Tree} (hr : ¬ BelowIn rest [n]) (p : List Text) :
    TemplateAt (.dir n cs rest) (n :: p) ↔ TemplateAt cs p := by
  unfold TemplateAt
  rw [List.cons_append]
  show (_ ∨ _) ↔ _
  constructor
  · rintro (⟨q, h, hq⟩ | h)
    · simp only [List.cons.injEq, true_and] at h
      subst h
      exact hq.resolve_left (by simp)
    · exact absurd (below_head h) hr
  · intro h
    exact Or.inl ⟨_, rfl, Or.inr h⟩

theorem at_dir_other {n m : Text} {cs rest : Tree} (hm : m ≠ n) (p : List Text) :
    TemplateAt (.dir n cs rest) (m :: p) ↔ TemplateAt rest (m :: p) := by
  unfold TemplateAt
  rw [List.cons_append]
  show (_ ∨ _) ↔ _
  constructor
  · rintro (⟨q, h, hq⟩ | h)
    · simp only [List.cons.injEq] at h; exact absurd h.1 hm
    · exact h
  · exact Or.inr

theorem at_file {n x : Text} {rest : Tree} (m : Text) (p : List Text) :
    TemplateAt (.file n x rest) (m :: p) ↔ TemplateAt rest (m :: p) := by
  unfold TemplateAt
  rw [List.cons_append]
  show (_ ∨ _) ↔ _
  constructor
  · rintro (h | h)
    · simp at h
    · exact h
  · exact Or.inr

theorem outer_same {t s : Tree} {m : Text} (ht : ¬ TemplateAt t []) (h : ∀ q, TemplateAt t (m :: q) ↔ TemplateAt s q) (p : List Text) :
    OuterTemplate t (m :: p) ↔ OuterTemplate s p := by
  unfold OuterTemplate
  rw [h]
  refine and_congr Iff.rfl ⟨fun H q hq hne => ?_, fun H q hq hne => ?_⟩
  · rw [← h]
    exact H (m :: q) (by simpa [List.cons_prefix_cons] using hq) (by simpa using hne)
  · cases q with
    | nil => exact ht
    | cons x q =>
      rw [List.cons_prefix_cons] at hq
      obtain ⟨rfl, hq⟩ := hq
      rw [h]
      exact H q hq (fun e => hne (by rw [e]))

theorem outer_other {t s : Tree} {m : Text} (ht : ¬ TemplateAt t []) (hs : ¬ TemplateAt s [])
    (h : ∀ q, TemplateAt t (m :: q) ↔ TemplateAt s (m :: q)) (p : List Text) :
    OuterTemplate t (m :: p) ↔ OuterTemplate s (m :: p) := by
  unfold OuterTemplate
  rw [h]
  refine and_congr Iff.rfl ⟨fun H q hq hne => ?_, fun H q hq hne => ?_⟩
  · cases q with
    | nil => exact hs
    | cons x q =>
      have := H (x :: q) hq hne
      rw [List.cons_prefix_cons] at hq
      obtain ⟨rfl, hq⟩ := hq
      rwa [h] at this
  · cases q with
    | nil => exact ht
    | cons x q =>
      have := H (x :: q) hq hne
      rw [List.cons_prefix_cons] at hq
      obtain ⟨rfl, hq⟩ := hq
      rwa [← h] at this

theorem outer_nil {t : Tree} (h : has t = false) : ¬ OuterTemplate t [] := fun H => has_false h H.1

theorem outer_here {t : Tree} (h : has t = true) (p : List Text) : OuterTemplate t p ↔ p = [] := by
  have h0 := (has_iff t).1 h
  constructor
  · intro H
    by_cases hp : p = []
    · exact hp
    · exact absurd h0 (H.2 [] (List.nil_prefix) (Ne.symm hp))
  · rintro rfl
    exact ⟨h0, fun q hq hne => absurd (List.prefix_nil.1 hq) hne⟩

theorem outer_iff (t : Tree) (hu : OwnEntries t) (h : has t = false) (p : List Text) : p ∈ outer t ↔ OuterTemplate t p := by
  induction t generalizing p with
  | nil =>
    simp only [outer, List.not_mem_nil, false_iff]
    exact fun H => H.1
  | file n x rest ih =>
    have hr : has rest = false := by simp only [has, hasOf, Bool.or_eq_false_iff] at h; exact h.2
    rw [outer, ih hu.2 hr]
    cases p with
    | nil => exact ⟨fun H => absurd H (outer_nil hr), fun H => absurd H (outer_nil h)⟩
    | cons m p => exact (outer_other (has_false h) (has_false hr) (fun q => at_file m q) p).symm
  | dir n cs rest ihc ih =>
    have hr : has rest = false := by simp only [has, hasOf, Bool.or_eq_false_iff] at h; exact h.2
    obtain ⟨hn, hcs, hrest⟩ := hu
    rw [outer, List.mem_append, ih hrest hr]
    cases p with
    | nil =>
      refine ⟨fun H => ?_, fun H => absurd H (outer_nil h)⟩
      rcases H with H | H
      · split at H <;> simp at H
      · exact absurd H (outer_nil hr)
    | cons m p =>
      by_cases hm : m = n
      · subst hm
        rw [outer_same (has_false h) (fun q => at_dir_same hn q) p]
        have hno : ¬ OuterTemplate rest (m :: p) := fun H => hn (below_head H.1)
        simp only [hno, or_false]
        cases hc : has cs with
        | true => simp [outer_here hc]
        | false => simp [ihc hcs hc]
      · rw [outer_other (has_false h) (has_false hr) (fun q => at_dir_other hm q) p]
        refine ⟨fun H => H.resolve_left ?_, Or.inr⟩
        intro H
        split at H
        · simp at H; exact hm H.1
        · simp at H; exact hm H.2.symm

theorem outer_ne_nil {t : Tree} (h0 : ¬ TemplateAt t []) {p : List Text} (h : OuterTemplate t p) : p ≠ [] := by
  rintro rfl; exact h0 h.1

theorem drop_dots (p : List Text) (h : p ≠ []) :
    (Tasks.dots (t!"pkm_templates" :: p)).drop (t!"pkm_templates.").length = Tasks.dots p := by
  rw [← dots_append _ p h]
  rfl

theorem listed_eq (t : Tree) (hu : OwnEntries t) (h0 : ¬ TemplateAt t []) : listed t = (outer t).map Tasks.dots := by
  have h : has t = false := by
    cases hh : has t with
    | false => rfl
    | true => exact absurd ((has_iff t).1 hh) h0
  rw [listed, findIn_outer t _ _ h, List.nil_append, List.map_map]
  apply List.map_congr_left
  intro p hp
  exact drop_dots p (outer_ne_nil h0 ((outer_iff t hu h p).1 hp))

theorem under_clean {t : Text} (h : '-' ∉ t) : under t = t := by
  induction t with
  | nil => rfl
  | cons c t ih =>
    simp only [List.mem_cons, not_or] at h
    have := ih h.2
    simp only [under, List.map_cons] at this ⊢
    rw [this, if_neg (Ne.symm h.1)]

theorem split_name (p : List Text) (hp : p ≠ []) (hd : ∀ x ∈ p, '.' ∉ x) (hm : ∀ x ∈ p, '-' ∉ x) :
    splitOn '.' (under (Tasks.dots p)) = p := by
  rw [under_dots, List.map_congr_left (fun x hx => under_clean (hm x hx)), List.map_id']
  exact splitOn_dots_ p hp hd

end NewCommand

namespace Spec
open Pkm.Templates Pkm.Tasks

/-- The template can be imported: its directories have names of modules, nothing in the working directory and no other directory
of modules is in the way. -/
structure Importable (here : List Text → Bool) (path : List Entry) (e : Entry) (p : List Text) : Prop where
  parts : ∀ x ∈ p, '.' ∉ x ∧ '-' ∉ x
  away : here (p ++ [t!"render.py"]) = false
  placed : TaskAt e (t!"pkm_templates" :: p) t!"render"
  among : ∃ pre post, path = pre ++ e :: post ∧ (∀ x ∈ pre, NothingNamed t!"pkm_templates" x) ∧
    ∀ x ∈ post, NothingNamed t!"pkm_templates" x

/-- Where the template is. -/
def fileOf (e : Entry) (p : List Text) : List Text := e.root ++ (t!"pkm_templates" :: p) ++ [t!"render.py"]

end Spec

namespace NewCommand
open Spec Templates Tasks

theorem load_found {here : List Text → Bool} {path : List Entry} {e : Entry} {p : List Text} (hp : p ≠ [])
    (h : Importable here path e p) : load here path (Tasks.dots p) = .found (fileOf e p) := by
  obtain ⟨pre, post, rfl, h1, h2⟩ := h.among
  have hs := split_name p hp (fun x hx => (h.parts x hx).1) (fun x hx => (h.parts x hx).2)
  unfold load
  have ha : here (p ++ [renderFile]) = false := h.away
  rw [hs, ha]
  have hf := find_among h.placed (pre := pre) (post := post) h1 h2
  rw [hf]
  rfl

theorem loadAll_found {here : List Text → Bool} {path : List Entry} {e : Entry} : ∀ (ps : List (List Text)),
    (∀ p ∈ ps, p ≠ [] ∧ Importable here path e p) →
    loadAll here path (ps.map Tasks.dots) = some (ps.map (fun p => (Tasks.dots p, fileOf e p)))
  | [], _ => rfl
  | p :: ps, h => by
    have hp := h p (by simp)
    simp only [List.map_cons, loadAll, load_found hp.1 hp.2,
      loadAll_found ps (fun q hq => h q (List.mem_cons_of_mem _ hq)), Option.map_some]

theorem dots_ne_nil (p : List Text) (h : p ≠ []) (h1 : p ≠ [[]]) : Tasks.dots p ≠ [] := by
  match p with
  | [] => exact absurd rfl h
  | [[]] => exact absurd rfl h1
  | [c :: t] => simp [Tasks.dots]
  | t :: u :: ts => simp [Tasks.dots]

/-! ### C113 -/

/-- C113: the names that are listed are those of the templates that are not part of another one. -/
theorem new_lists (t : Tree) (hu : OwnEntries t) (h0 : ¬ TemplateAt t []) (n : Text) :
    n ∈ listed t ↔ ∃ p, OuterTemplate t p ∧ n = Tasks.dots p := by
  have h : has t = false := by
    cases hh : has t with
    | false => rfl
    | true => exact absurd ((has_iff t).1 hh) h0
  rw [listed_eq t hu h0, List.mem_map]
  constructor
  · rintro ⟨p, hp, rfl⟩; exact ⟨p, (outer_iff t hu h p).1 hp, rfl⟩
  · rintro ⟨p, hp, rfl⟩; exact ⟨p, (outer_iff t hu h p).2 hp, rfl⟩

/-- C113: `pkm new` with the name of a template that can be imported is the command of this template. -/
theorem new_named_partial (here : List Text → Bool) (path : List Entry) (e : Entry) (t : Tree) (p : List Text) (hp : p ≠ [])
    (h1 : p ≠ [[]]) (h : Importable here path e p) :
    pkmNew here path t (some (Tasks.dots p)) = some [(Tasks.dots p, fileOf e p)] := by
  have hl := load_found hp h
  have hne := dots_ne_nil p hp h1
  generalize hd : Tasks.dots p = d at *
  cases d with
  | nil => exact absurd rfl hne
  | cons c cs => simp only [pkmNew, hl]

/-- C113: if all templates can be imported, `pkm new` without a name has the commands of all of them; with the beginning of names it
has those that begin so, and with any other name all of them. Missing: templates that cannot be imported. -/
theorem new_offers_partial (here : List Text → Bool) (path : List Entry) (e : Entry) (t : Tree) (hu : OwnEntries t)
    (h0 : ¬ TemplateAt t []) (h : ∀ p, OuterTemplate t p → Importable here path e p) :
    (∃ l, pkmNew here path t none = some l ∧
      ∀ n f, (n, f) ∈ l ↔ ∃ p, OuterTemplate t p ∧ n = Tasks.dots p ∧ f = fileOf e p) ∧
    ∀ a, a ≠ [] → (∀ f, load here path a ≠ .found f) → ∃ l, pkmNew here path t (some a) = some l ∧
      ∀ n f, (n, f) ∈ l ↔ (∃ p, OuterTemplate t p ∧ n = Tasks.dots p ∧ f = fileOf e p) ∧
        (a <+: n ∨ ∀ q, OuterTemplate t q → ¬ a <+: Tasks.dots q) := by
  have hf : has t = false := by
    cases hh : has t with
    | false => rfl
    | true => exact absurd ((has_iff t).1 hh) h0
  have ho := outer_iff t hu hf
  have hall : ∀ p ∈ outer t, p ≠ [] ∧ Importable here path e p := fun p hp =>
    ⟨outer_ne_nil h0 ((ho p).1 hp), h p ((ho p).1 hp)⟩
  have key : ∀ ps : List (List Text), (∀ p ∈ ps, p ∈ outer t) → loadAll here path (ps.map Tasks.dots) =
      some (ps.map (fun p => (Tasks.dots p, fileOf e p))) := fun ps hps => loadAll_found ps (fun p hp => hall p (hps p hp))
  have hl := listed_eq t hu h0
  have mem : ∀ (ps : List (List Text)) n f, (n, f) ∈ ps.map (fun p => (Tasks.dots p, fileOf e p)) ↔
      ∃ p ∈ ps, n = Tasks.dots p ∧ f = fileOf e p := by
    intro ps n f
    simp only [List.mem_map, Prod.mk.injEq]
    exact ⟨fun ⟨p, h1, h2, h3⟩ => ⟨p, h1, h2.symm, h3.symm⟩, fun ⟨p, h1, h2, h3⟩ => ⟨p, h1, h2.symm, h3.symm⟩⟩
  refine ⟨⟨_, by rw [pkmNew, hl]; exact key _ (fun p hp => hp), ?_⟩, ?_⟩
  · intro n f
    rw [mem]
    exact ⟨fun ⟨p, hp, x⟩ => ⟨p, (ho p).1 hp, x⟩, fun ⟨p, hp, x⟩ => ⟨p, (ho p).2 hp, x⟩⟩
  · intro a ha hno
    cases a with
    | nil => exact absurd rfl ha
    | cons c cs =>
      have e1 : pkmNew here path t (some (c :: cs)) =
          (if ((listed t).filter (fun n => (c :: cs).isPrefixOf n)).isEmpty then loadAll here path (listed t)
          else loadAll here path ((listed t).filter (fun n => (c :: cs).isPrefixOf n))) := by
        unfold pkmNew
        dsimp only
        split
        · rename_i f hx; exact absurd hx (hno f)
        · rfl
      have e2 : (listed t).filter (fun n => (c :: cs).isPrefixOf n) =
          ((outer t).filter (fun p => (c :: cs).isPrefixOf (Tasks.dots p))).map Tasks.dots := by
        rw [hl, List.filter_map]; rfl
      rw [e1, e2]
      by_cases hemp : ((outer t).filter (fun p => (c :: cs).isPrefixOf (Tasks.dots p))) = []
      · rw [hemp, List.map_nil, if_pos (by rfl), hl]
        refine ⟨_, key _ (fun p hp => hp), ?_⟩
        intro n f
        rw [mem]
        have hnone : ∀ q, OuterTemplate t q → ¬ (c :: cs) <+: Tasks.dots q := by
          intro q hq hpre
          have := List.filter_eq_nil_iff.1 hemp q ((ho q).2 hq)
          exact this (List.isPrefixOf_iff_prefix.2 hpre)
        constructor
        · rintro ⟨p, hp, x⟩; exact ⟨⟨p, (ho p).1 hp, x⟩, Or.inr hnone⟩
        · rintro ⟨⟨p, hp, x⟩, -⟩; exact ⟨p, (ho p).2 hp, x⟩
      · rw [if_neg (by simpa using hemp)]
        refine ⟨_, key _ (fun p hp => (List.mem_filter.1 hp).1), ?_⟩
        intro n f
        rw [mem]
        constructor
        · rintro ⟨p, hp, rfl, rfl⟩
          have := List.mem_filter.1 hp
          exact ⟨⟨p, (ho p).1 this.1, rfl, rfl⟩, Or.inl (List.isPrefixOf_iff_prefix.1 this.2)⟩
        · rintro ⟨⟨p, hp, rfl, rfl⟩, hx⟩
          refine ⟨p, List.mem_filter.2 ⟨(ho p).2 hp, List.isPrefixOf_iff_prefix.2 ?_⟩, rfl, rfl⟩
          rcases hx with hx | hx
          · exact hx
          · obtain ⟨q, hq⟩ := List.exists_mem_of_ne_nil _ hemp
            have := List.mem_filter.1 hq
            exact absurd (List.isPrefixOf_iff_prefix.1 this.2) (hx q ((ho q).1 this.1))

/-- C113 is violated: a directory of the working directory that looks like a template makes `pkm new` fail, whatever it is asked for
(unless this is another template). -/
theorem new_local_violated (here : List Text → Bool) (path : List Entry) (t : Tree) (n : Text) (hn : n ∈ listed t)
    (hh : here (splitOn '.' (under n) ++ [t!"render.py"]) = true) : pkmNew here path t none = none := by
  have hb : load here path n = .broken := by
    unfold load
    rw [show (splitOn '.' (under n) ++ [renderFile]) = splitOn '.' (under n) ++ [t!"render.py"] from rfl, hh]
    rfl
  have : ∀ l : List Text, n ∈ l → loadAll here path l = none := by
    intro l hl
    induction l with
    | nil => simp at hl
    | cons m l ih =>
      unfold loadAll
      rcases List.mem_cons.1 hl with h | h
      · subst h; rw [hb]
      · rw [ih h]; cases load here path m <;> rfl
  exact this _ hn

namespace Example

/-- Templates `project`, `env`, `docs.site`; within `project` there is another `render.py`. -/
def tree : Tree :=
  .dir t!"project" (.dir t!"sub" (.file t!"render.py" [] .nil) <| .file t!"render.py" [] .nil) <|
  .dir t!"env" (.file t!"render.py" [] .nil) <|
  .dir t!"docs" (.dir t!"site" (.file t!"render.py" [] .nil) .nil) .nil

/-- The files and directories of a tree. -/
def files : Tree → List (List Text)
  | .nil => []
  | .file n _ rest => [n] :: files rest
  | .dir n cs rest => (files cs).map (n :: ·) ++ files rest

def dirs : Tree → List (List Text)
  | .nil => []
  | .file _ _ rest => dirs rest
  | .dir n cs rest => [n] :: (dirs cs).map (n :: ·) ++ dirs rest

def site (t : Tree) : Entry where
  root := [t!"site"]
  file := fun p => p.head? == some t!"pkm_templates" && (files t).contains p.tail
  dir := fun p => p == [t!"pkm_templates"] || (p.head? == some t!"pkm_templates" && (dirs t).contains p.tail)

def noFiles : List Text → Bool := fun _ => false

example : listed tree = [t!"project", t!"env", t!"docs.site"] := by decide

example : pkmNew noFiles [site tree] tree (some t!"docs.site") =
    some [(t!"docs.site", [t!"site", t!"pkm_templates", t!"docs", t!"site", t!"render.py"])] := by decide

example : (pkmNew noFiles [site tree] tree (some t!"p")).map (fun l => l.map (·.1)) = some [t!"project"] := by decide

theorem prefixes (a b : Text) (q : List Text) (h : q <+: [a, b]) : q = [] ∨ q = [a] ∨ q = [a, b] := by
  rcases q with _ | ⟨x, _ | ⟨y, _ | ⟨z, q⟩⟩⟩
  · exact Or.inl rfl
  · simp at h; subst h; exact Or.inr (Or.inl rfl)
  · simp at h; obtain ⟨rfl, rfl⟩ := h; exact Or.inr (Or.inr rfl)
  · simp at h

theorem env_importable : Importable noFiles [site tree] (site tree) [t!"env"] where
  parts := by decide
  away := rfl
  placed := {
    file := by decide
    alone := by decide
    leads := by
      intro q h h0
      rcases prefixes _ _ q h with rfl | rfl | rfl
      · exact absurd rfl h0
      · decide
      · decide
    noModule := by
      intro q n h
      rcases prefixes _ _ _ h with e | e | e
      · simp at e
      · cases q with
        | nil => simp at e; subst e; decide
        | cons x q => simp at e
      · rcases q with _ | ⟨x, _ | ⟨y, q⟩⟩ <;> simp at e
        obtain ⟨rfl, rfl⟩ := e; decide }
  among := ⟨[], [], rfl, by simp, by simp⟩

/-- Only the template `env`, and a file beside it. -/
def one : Tree := .dir t!"env" (.file t!"render.py" [] (.file t!"x.txt" [] .nil)) (.file t!"README.md" [] .nil)

example : OwnEntries one ∧ ¬ TemplateAt one [] ∧
    ∀ p, OuterTemplate one p → Importable noFiles [site tree] (site tree) p := by
  have hu : OwnEntries one := by simp [OwnEntries, one, BelowIn]
  have h0 : ¬ TemplateAt one [] := by rw [← has_iff]; decide
  refine ⟨hu, h0, fun p hp => ?_⟩
  have := (outer_iff one hu (by decide) p).2 hp
  rw [show outer one = [[t!"env"]] from by decide, List.mem_singleton] at this
  subst this
  exact env_importable

end Example

/-- C113 is violated: a template in a directory with a hyphen is listed and cannot be loaded, and then none can be chosen from the
list. -/
theorem new_hyphen_violated :
    listed (.dir t!"my-app" (.file t!"render.py" [] .nil) Example.tree) = t!"my-app" :: listed Example.tree ∧
    pkmNew Example.noFiles [Example.site (.dir t!"my-app" (.file t!"render.py" [] .nil) Example.tree)]
      (.dir t!"my-app" (.file t!"render.py" [] .nil) Example.tree) none = none ∧
    pkmNew Example.noFiles [Example.site (.dir t!"my-app" (.file t!"render.py" [] .nil) Example.tree)]
      (.dir t!"my-app" (.file t!"render.py" [] .nil) Example.tree) (some t!"my-app") = none := by
  decide

end NewCommand
end Pkm
