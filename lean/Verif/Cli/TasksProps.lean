import Verif.Cli.Tasks
import Verif.Cli.Lemmas
import Verif.Tags.Lemmas
set_option linter.unusedVariables false
set_option linter.unusedSimpArgs false
/-
Theorems about tasks (C87).
-/
namespace Pkm
open Tasks

namespace Spec

/-- The directory has nothing that Python would find by this name. -/
structure NothingNamed (n : Text) (e : Entry) : Prop where
  package : e.file [n, t!"__init__.py"] = false
  module_ : e.file [n ++ t!".py"] = false
  dir : e.dir [n] = false

/-- The directory has the file `name.py` in these directories, and nothing else of the same name is beside it or beside
the directories that lead to it. -/
structure TaskAt (t : Entry) (dirs : List Text) (name : Text) : Prop where
  file : t.file (dirs ++ [name ++ t!".py"]) = true
  alone : t.file (dirs ++ [name, t!"__init__.py"]) = false
  leads : ∀ q, q <+: dirs → q ≠ [] → t.dir q = true
  noModule : ∀ q n, q ++ [n] <+: dirs → t.file (q ++ [n ++ t!".py"]) = false

end Spec
open Spec

namespace Tasks

theorem look_skip {n : Text} : ∀ {pre es : List Entry}, (∀ e ∈ pre, NothingNamed n e) → look n (pre ++ es) = look n es
  | [], _, _ => rfl
  | e :: pre, es, h => by
    have he := h e (by simp)
    have ih := look_skip (es := es) (fun x hx => h x (List.mem_cons_of_mem _ hx))
    simp only [List.cons_append, look, ih]
    rw [if_neg (by simp [initFile, he.package]), if_neg (by simp [he.module_])]
    cases look n es <;> simp [he.dir]

theorem look_none {n : Text} {es : List Entry} (h : ∀ e ∈ es, NothingNamed n e) : look n es = .portions [] := by
  have := look_skip (es := []) h
  simpa [look] using this

theorem find_one : ∀ {dirs : List Text} {t : Entry} {name : Text}, TaskAt t dirs name →
    find [t] (dirs ++ [name]) = .file (t.root ++ dirs ++ [name ++ t!".py"])
  | [], t, name, h => by
    have a := h.alone
    have b := h.file
    simp only [List.nil_append] at a b
    simp only [List.nil_append, find, look, initFile, a, b, List.append_nil]
    simp
  | d :: dirs, t, name, h => by
    have sub : TaskAt (t.sub d) dirs name :=
      ⟨h.file, h.alone, fun q hq hn => h.leads (d :: q) (by simpa using hq) (by simp),
        fun q n hq => h.noModule (d :: q) n (by simpa using hq)⟩
    have ih := find_one sub
    have hd : t.dir [d] = true := h.leads [d] (by simp) (by simp)
    have hm : t.file [d ++ t!".py"] = false := h.noModule [] d (by simp)
    obtain ⟨m, rest, e⟩ : ∃ m rest, dirs ++ [name] = m :: rest := by cases dirs <;> simp
    have hl : look d [t] = if t.file [d, initFile] then .package (t.sub d) else .portions [t.sub d] := by
      simp only [look, hm, hd]
      simp
    rw [List.cons_append, e]
    simp only [find, hl]
    split
    · rename_i heq; split at heq <;> cases heq
    · rename_i x heq
      split at heq
      · cases heq; rw [← e, ih]; simp [Entry.sub]
      · cases heq
    · rename_i heq; split at heq <;> cases heq
    · rename_i ps hps heq
      split at heq
      · cases heq
      · cases heq; rw [← e, ih]; simp [Entry.sub]

/-- In several directories, of which one has something of the first name. -/
theorem find_among {dirs : List Text} {t : Entry} {name : Text} {pre post : List Entry} (h : TaskAt t dirs name)
    (hpre : ∀ e ∈ pre, NothingNamed ((dirs ++ [name]).headD []) e)
    (hpost : ∀ e ∈ post, NothingNamed ((dirs ++ [name]).headD []) e) :
    find (pre ++ t :: post) (dirs ++ [name]) = .file (t.root ++ dirs ++ [name ++ t!".py"]) := by
  rw [← find_one h]
  have key : ∀ n, (∀ e ∈ pre, NothingNamed n e) → (∀ e ∈ post, NothingNamed n e) →
      look n (pre ++ t :: post) = look n [t] := by
    intro n a b
    rw [look_skip a]
    simp [look, look_none b]
  cases dirs with
  | nil =>
    simp only [List.nil_append, List.headD_cons] at hpre hpost
    simp only [List.nil_append, find, key name hpre hpost]
  | cons d dirs =>
    simp only [List.cons_append, List.headD_cons] at hpre hpost
    obtain ⟨m, rest, e⟩ : ∃ m rest, dirs ++ [name] = m :: rest := by cases dirs <;> simp
    rw [List.cons_append, e]
    simp only [find, key d hpre hpost]

theorem dots_append (a : Text) : ∀ (ts : List Text), ts ≠ [] → a ++ '.' :: dots ts = dots (a :: ts)
  | t :: ts, _ => by simp [dots]

theorem dots_snoc : ∀ (ts : List Text) (a : Text), ts ≠ [] → dots ts ++ '.' :: a = dots (ts ++ [a])
  | [t], a, _ => by simp [dots]
  | t :: u :: ts, a, _ => by
    have := dots_snoc (u :: ts) a (by simp)
    simp only [dots, List.cons_append, List.append_assoc] at this ⊢
    rw [← this]

theorem splitOn_dots_ : ∀ (ts : List Text), ts ≠ [] → (∀ t ∈ ts, '.' ∉ t) → splitOn '.' (dots ts) = ts
  | [t], _, h => by rw [dots, Tags.splitOn_one]; exact h t (by simp)
  | t :: u :: ts, _, h => by
    rw [dots, Tags.splitOn_step _ _ _ (h t (by simp)),
      splitOn_dots_ (u :: ts) (by simp) (fun x hx => h x (List.mem_cons_of_mem _ hx))]

theorem under_dots : ∀ (ts : List Text), under (dots ts) = dots (ts.map under)
  | [] => rfl
  | [t] => rfl
  | t :: u :: ts => by
    have ih := under_dots (u :: ts)
    simp only [dots, List.map_cons] at ih ⊢
    rw [← ih]
    simp [under]

theorem under_under (t : Text) : under (under t) = under t := by
  simp only [under, List.map_map]
  apply List.map_congr_left
  intro c _
  simp only [Function.comp]
  split
  · simp
  · rfl

theorem dot_under {t : Text} (h : '.' ∉ t) : '.' ∉ under t := by
  simp only [under, List.mem_map, not_exists, not_and]
  intro c hc
  split
  · simp
  · rintro rfl; exact h hc

end Tasks

/-! ## Attached tasks -/

/-- The name that is made for an attached task leads to the file that was found: if the words of the command have no
dots, and no other directory that Python searches has anything named `commands`. -/
theorem attached_leads_partial (words : List Text) (phase : Text) (hp : phase = t!"before" ∨ phase = t!"after")
    (exists_ : List Text → Bool) (tasks : Entry) (pre post : List Entry)
    (he : ∀ q, exists_ (t!"tasks" :: q) = tasks.file q)
    (hw : words ≠ []) (hd : ∀ w ∈ words, '.' ∉ w)
    (ht : TaskAt tasks (t!"commands" :: words.map under) phase)
    (hpre : ∀ e ∈ pre, NothingNamed t!"commands" e) (hpost : ∀ e ∈ post, NothingNamed t!"commands" e) :
    ∃ name, attachedName phase (t!"pkm" :: words) exists_ = some name ∧
      loadTask (pre ++ tasks :: post) name
        = some (tasks.root ++ [t!"commands"] ++ words.map under ++ [phase ++ t!".py"]) := by
  have hu : words.map under ≠ [] := by simpa using hw
  have hph : '.' ∉ phase ∧ under phase = phase := by rcases hp with rfl | rfl <;> decide
  have hf : exists_ (attachedFile phase (t!"pkm" :: words)) = true := by
    simp only [attachedFile, List.map_cons, List.tail_cons]
    rw [show [t!"tasks", t!"commands"] ++ words.map under ++ [phase ++ t!".py"]
      = t!"tasks" :: (t!"commands" :: words.map under ++ [phase ++ t!".py"]) from rfl, he]
    exact ht.file
  refine ⟨t!"commands." ++ (dots (((t!"pkm" :: words).map under).tail) ++ '.' :: phase), by simp only [attachedName, hf, if_true], ?_⟩
  have hname : t!"commands." ++ (dots (((t!"pkm" :: words).map under).tail) ++ '.' :: phase)
      = dots ((t!"commands" :: words.map under) ++ [phase]) := by
    rw [← dots_snoc _ _ (by simp), ← dots_append _ _ hu]
    simp
  have hsplit : splitOn '.' (under (dots ((t!"commands" :: words.map under) ++ [phase])))
      = (t!"commands" :: words.map under) ++ [phase] := by
    rw [under_dots]
    have e : ((t!"commands" :: words.map under) ++ [phase]).map under = (t!"commands" :: words.map under) ++ [phase] := by
      simp only [List.map_append, List.map_cons, List.map_nil, List.map_map, hph.2]
      congr 2
      apply List.map_congr_left
      intro w _
      exact under_under w
    rw [e]
    apply splitOn_dots_ _ (by simp)
    intro t ht'
    simp only [List.cons_append, List.mem_cons, List.mem_append, List.mem_map, List.mem_singleton] at ht'
    rcases ht' with rfl | ⟨w, hw', rfl⟩ | rfl | h
    · decide
    · exact dot_under (hd w hw')
    · exact hph.1
    · cases h
  unfold loadTask
  rw [hname, hsplit, find_among ht (by simpa using hpre) (by simpa using hpost)]
  simp

/-- A project with `tasks/commands/self_/before.py`. -/
def Tasks.exTasks : Entry :=
  { root := [t!"p", t!"tasks"]
    file := fun p => [[t!"commands", t!"re_pos", t!"before.py"]].contains p
    dir := fun p => [[t!"commands"], [t!"commands", t!"re_pos"]].contains p }

def Tasks.exEmpty : Entry := ⟨[t!"tmp"], fun _ => false, fun _ => false⟩

example : TaskAt exTasks [t!"commands", t!"re_pos"] t!"before" := by
  refine ⟨by decide, by decide, ?_, ?_⟩
  · rintro q hq hn
    rcases List.prefix_cons_iff.mp hq with rfl | ⟨q1, rfl, hq1⟩
    · exact absurd rfl hn
    rcases List.prefix_cons_iff.mp hq1 with rfl | ⟨q2, rfl, hq2⟩
    · decide
    · rw [List.prefix_nil.mp hq2]; decide
  · rintro q n hq
    cases q with
    | nil => simp [exTasks]
    | cons a q => cases q with
      | nil => simp [exTasks]
      | cons b q =>
        have := hq.length_le
        simp at this
example : attachedName t!"before" [t!"pkm", t!"re-pos"] (fun p => p.head? == some t!"tasks" && exTasks.file p.tail)
    = some t!"commands.re_pos.before" := by decide
example : loadTask [exEmpty, exTasks] t!"commands.re_pos.before" = some [t!"p", t!"tasks", t!"commands", t!"re_pos", t!"before.py"] := by
  decide

/-- The claim fails if a package of the environment is named `commands`: Python prefers it to the directories of the
project, and the task is not found. -/
theorem attached_shadowed_violated : ∃ (tasks site : Entry) (name : Text),
    attachedName t!"before" [t!"pkm", t!"re-pos"] (fun p => p.head? == some t!"tasks" && tasks.file p.tail) = some name ∧
    loadTask [tasks, site] name = none :=
  ⟨exTasks, ⟨[t!"site"], fun p => p == [t!"commands", t!"__init__.py"], fun p => p == [t!"commands"]⟩,
    t!"commands.re_pos.before", by decide, by decide⟩

/-- The claim fails for a command with a dot in a word, such as the name of a template. -/
theorem attached_dotted_violated : ∃ (tasks : Entry) (command : List Text) (name : Text),
    attachedName t!"before" command (fun p => p.head? == some t!"tasks" && tasks.file p.tail) = some name ∧
    loadTask [tasks] name = none :=
  ⟨⟨[t!"p", t!"tasks"], fun p => p == [t!"commands", t!"new", t!"a.b", t!"before.py"],
      fun p => [[t!"commands"], [t!"commands", t!"new"], [t!"commands", t!"new", t!"a.b"]].contains p⟩,
    [t!"pkm", t!"new", t!"a.b"], t!"commands.new.a.b.before", by decide, by decide⟩

/-- Without attached tasks the command runs once, and nothing else does. -/
theorem attached_none (modules : Text → Bool) (exists_ : List Text → Bool) (command : List Text) (fails : Bool)
    (h : ∀ ph ∈ [t!"before", t!"after"],
      exists_ (t!"tasks" :: t!"commands" :: ((command.map under).tail ++ [ph ++ t!".py"])) = false) :
    runAttached modules exists_ command fails = ([.command], if fails then .commandFailed else .ok) := by
  have hb : attachedName t!"before" command exists_ = none := by
    have : exists_ (attachedFile t!"before" command) = false := h t!"before" (by simp)
    simp [attachedName, this]
  have ha : attachedName t!"after" command exists_ = none := by
    have : exists_ (attachedFile t!"after" command) = false := h t!"after" (by simp)
    simp [attachedName, this]
  cases fails <;> simp [runAttached, phase, hb, ha]

example : runAttached (fun _ => false) (fun _ => false) [t!"pkm", t!"install"] true = ([.command], .commandFailed) := by decide

/-- With the module that the first process asks for, the task before, the command and the task after run in this order;
the task after does not run if the command fails. -/
theorem attached_order_partial (modules : Text → Bool) (exists_ : List Text → Bool) (command : List Text) (fails : Bool)
    (before after : Option Text) (hm : modules t!"pkm_cli.tasks.execute_task_cli-p" = true)
    (hb : attachedName t!"before" command exists_ = before) (ha : attachedName t!"after" command exists_ = after) :
    runAttached modules exists_ command fails
      = (before.toList.map .task ++ [.command] ++ (if fails then [] else after.toList.map .task),
          if fails then .commandFailed else .ok) := by
  cases before <;> cases after <;> cases fails <;>
    simp [runAttached, phase, hb, ha, execTask, runnerModule, hm]

example : runAttached (fun _ => true) (fun p => p == [t!"tasks", t!"commands", t!"build", t!"before.py"])
    [t!"pkm", t!"build"] false = ([.task t!"commands.build.before", .command], .ok) := by decide

/-- The claim "attached tasks run around the command" fails: the first process of a task runs a module that is not part
of pkm, because of a missing comma. For every project with a task before a command, neither the task nor the command
runs. -/
theorem attached_runs_violated (modules : Text → Bool) (exists_ : List Text → Bool) (command : List Text) (fails : Bool)
    (hm : modules t!"pkm_cli.tasks.execute_task_cli-p" = false)
    (h : exists_ (t!"tasks" :: t!"commands" :: ((command.map under).tail ++ [t!"before.py"])) = true) :
    runAttached modules exists_ command fails = ([], .process) := by
  have hb : ∃ n, attachedName t!"before" command exists_ = some n := by
    have h' : exists_ (attachedFile t!"before" command) = true := h
    simp [attachedName, h']
  obtain ⟨n, hn⟩ := hb
  simp [runAttached, phase, hn, execTask, runnerModule, hm]

/-- The claim "a command has its own tasks" fails for commands whose words differ in `-` and `_` only. -/
theorem attached_own_violated : ∃ a b : List Text, a ≠ b ∧
    ∀ ph exists_, attachedName ph a exists_ = attachedName ph b exists_ :=
  ⟨[t!"pkm", t!"a-b"], [t!"pkm", t!"a_b"], by decide, fun _ _ => rfl⟩

/-! ## PYTHONPATH -/

/-- A task finds the directory of tasks first, then what was in PYTHONPATH. -/
theorem task_pythonpath (tasksDir : Text) (old : Option Text) (h : ':' ∉ tasksDir) :
    splitOn ':' (taskPythonPath tasksDir old)
      = tasksDir :: (match old with | some (c :: cs) => splitOn ':' (c :: cs) | _ => []) := by
  cases old with
  | none => exact Tags.splitOn_one _ _ h
  | some o => cases o with
    | nil => exact Tags.splitOn_one _ _ h
    | cons c cs => exact Tags.splitOn_step _ _ _ h

example : taskPythonPath t!"/p/tasks" (some t!"/a:/b") = t!"/p/tasks:/a:/b" := by decide

/-- After a task PYTHONPATH is what it was, if it was set. -/
theorem pythonpath_kept_partial (old : Text) : pythonPathAfter (some old) = some old := rfl

/-- It is set to nothing if it was not set. -/
theorem pythonpath_kept_violated : pythonPathAfter none = some [] := rfl

/-! ## Tasks by name -/

/-- `pkm run @name` runs `name.py` of the directory of tasks, with `_` for `-`, if the directories before it have
nothing of this name. Dots in the name stand for directories. -/
theorem run_by_name_partial (dirs : List Text) (name : Text) (tasks : Entry) (pre post : List Entry) (project : List Text)
    (hd : ∀ w ∈ dirs ++ [name], '.' ∉ w) (hat : ((dirs ++ [name]).headD []).head? ≠ some '@')
    (ne : (dirs ++ [name]).headD [] ≠ [])
    (ht : TaskAt tasks (dirs.map under) (under name))
    (hpre : ∀ e ∈ pre, NothingNamed (under ((dirs ++ [name]).headD [])) e)
    (hpost : ∀ e ∈ post, NothingNamed (under ((dirs ++ [name]).headD [])) e) :
    (runByName (pre ++ tasks :: post) project ('@' :: dots (dirs ++ [name]))).map (·.1.file)
      = some (tasks.root ++ dirs.map under ++ [under name ++ t!".py"]) := by
  have hs : lstripAt ('@' :: '@' :: dots (dirs ++ [name])) = dots (dirs ++ [name]) := by
    have hh : (dots (dirs ++ [name])).head? ≠ some '@' := by
      obtain ⟨m, rest, e⟩ : ∃ m rest, dirs ++ [name] = m :: rest := by cases dirs <;> simp
      rw [e] at hat ne ⊢
      simp only [List.headD_cons] at hat ne
      cases rest with
      | nil => simpa [dots] using hat
      | cons r rest => cases m with
        | nil => exact absurd rfl ne
        | cons c m => simpa [dots] using hat
    simp only [lstripAt, List.dropWhile_cons, beq_self_eq_true, if_true]
    cases e : dots (dirs ++ [name]) with
    | nil => rfl
    | cons c cs =>
      rw [e] at hh
      simp at hh
      simp [List.dropWhile_cons, hh]
  have hsplit : splitOn '.' (under (dots (dirs ++ [name]))) = dirs.map under ++ [under name] := by
    rw [under_dots, List.map_append]
    apply splitOn_dots_ _ (by simp)
    intro t h'
    simp only [List.mem_append, List.mem_map, List.map_cons, List.map_nil, List.mem_singleton] at h'
    rcases h' with ⟨w, hw, rfl⟩ | rfl
    · exact dot_under (hd w (by simp [hw]))
    · exact dot_under (hd name (by simp))
  have hh : (dirs.map under ++ [under name]).headD [] = under ((dirs ++ [name]).headD []) := by
    cases dirs <;> simp
  have hf := find_among ht (by rw [hh]; exact hpre) (by rw [hh]; exact hpost)
  simp only [runByName, load, hs, loadTask, hsplit, hf]
  simp

example : (runByName [exEmpty, ⟨[t!"p", t!"tasks"], fun p => p == [t!"make_docs.py"], fun _ => false⟩] [t!"p"] t!"@make-docs").map (·.1.file)
    = some [t!"p", t!"tasks", t!"make_docs.py"] := by decide

/-- The claim "`pkm run @name` runs the task of this name of the project" fails: the working directory is searched
first, and a package there, such as `tests`, is taken for the task. -/
theorem run_by_name_violated : ∃ (cwd tasks : Entry), tasks.file [t!"tests.py"] = true ∧
    (runByName [cwd, tasks] [t!"p"] t!"@tests").map (·.1.file) = some (cwd.root ++ [t!"tests", t!"__init__.py"]) :=
  ⟨⟨[t!"p"], fun p => p == [t!"tests", t!"__init__.py"], fun p => p == [t!"tests"]⟩,
    ⟨[t!"p", t!"tasks"], fun p => p == [t!"tests.py"], fun _ => false⟩, by decide, by decide⟩

/-- The claim "tasks of installed packages (`pkm_tasks`) can be run by name" fails for every name with a dot of which
the first part is not found elsewhere. -/
theorem packaged_task_violated (path : List Entry) (a b : Text) (ha : '.' ∉ a) (hb : '.' ∉ b)
    (h : ∀ e ∈ path, NothingNamed (under a) e) : loadTask path (a ++ '.' :: b) = none := by
  have e : splitOn '.' (under (a ++ '.' :: b)) = [under a, under b] := by
    have : under (a ++ '.' :: b) = under a ++ '.' :: under b := by simp [under]
    rw [this, Tags.splitOn_step _ _ _ (dot_under ha), Tags.splitOn_one _ _ (dot_under hb)]
  simp [loadTask, e, find, look_none h]

/-- For names without dots they can. -/
theorem packaged_task_partial (path : List Entry) (a : Text) (e : Entry) (ha : '.' ∉ a)
    (none_ : ∀ x ∈ path, NothingNamed (under a) x)
    (hp : look t!"pkm_tasks" path = .package e) (h : TaskAt e [] (under a)) :
    loadTask path a = some (e.root ++ [under a ++ t!".py"]) := by
  have hs : splitOn '.' (under a) = [under a] := Tags.splitOn_one _ _ (dot_under ha)
  have h1 := find_one h
  simp only [List.nil_append, List.append_nil] at h1
  simp [loadTask, hs, find, look_none none_, hp, ← h1]
  simp only [find] at h1
  rw [h1]

/-- The claim "a task knows the project it runs in" fails: every task is loaded before the project is. -/
theorem task_project_violated (path : List Entry) (project : List Text) (word : Text) (t : Task) (g : Option (List Text))
    (h : runByName path project word = some (t, g)) : t.project = none ∧ g = some project := by
  simp only [runByName, load, Option.map_map, Option.map_eq_some_iff, Function.comp] at h
  obtain ⟨f, _, e⟩ := h
  cases e
  exact ⟨rfl, rfl⟩

/-! ## Arguments -/

namespace Tasks
open Cli

theorem readPositional_all (name : Text) (d : Option (Arg Text)) (args : Args Text) (buf : List Text) :
    readPositional { name := name, extra := none, default := d, conv := some } args buf
      = .ok (args.put name (.many (buf.map .val)), []) := by
  have := posLoop_values { name := name, extra := none, default := d, conv := some } rfl (buf.map (fun t => (t, t)))
    (by simp) [] (size buf) none [] (by simp [Function.comp_def]) (by simp)
  simp only [List.map_map, Function.comp_def, List.map_id', List.append_nil, List.nil_append] at this
  simp [readPositional, posValue, this]

theorem readPositional_one (name : Text) (args : Args Text) (a : Text) (buf : List Text) :
    readPositional { name := name, conv := some } args (a :: buf) = .ok (args.put name (.val a), buf) := by
  have := posLoop_values { name := name, conv := some } rfl [(a, a)]
    (by simp) buf (size (a :: buf)) (some 1) [] (by simp [size]) (by simp)
  simp only [List.map_cons, List.map_nil, List.singleton_append, List.nil_append] at this
  simp [readPositional, posValue, this]

end Tasks

namespace Tasks
open Cli

theorem loop_end (n : Nat) (s : St Text) (h : s.buf = [] ∨ ∃ r, s.buf = [] :: r) : loop [] n s = finish [] s := by
  cases n with
  | zero => rfl
  | succ n =>
    rcases h with h | ⟨r, h⟩ <;> simp [loop, h]

theorem finish_get (s : St Text) (cmd : CmdDef Text) (hc : s.node.cmd = some cmd) (ho : s.node.options = [])
    (hp : s.node.positional.drop s.index = []) (hpar : s.parents = []) :
    ∃ r, finish [] s = .ok [(s.path, r)] ∧ ∀ k, k ≠ t!"help" → Dict.get r k = Dict.get s.args k := by
  by_cases h : Dict.has s.args t!"help" = true
  · refine ⟨s.args, ?_, fun k _ => rfl⟩
    simp [finish, hc, finalize, ho, hp, hpar, finOptions, finPositional, helpOption, h]
  · refine ⟨Dict.put s.args t!"help" (.val []), ?_, fun k hk => ?_⟩
    · simp [finish, hc, finalize, ho, hp, hpar, finOptions, finPositional, helpOption, h, defaultOf]
    · rw [Dict.get_put, if_neg (fun e => hk e.symm)]

end Tasks
open Cli

/-- A program of `pkm run` gets its arguments as they are, options and empty ones too; only the program itself must not
look like an option or a field. -/
theorem program_arguments (c : Char) (program : Text) (args : List Text) (hm : c ≠ '-') (hp : c ≠ '+') :
    ∃ r, Cli.parse [] programCommand ((c :: program) :: args) = .ok [([], r)] ∧
      Dict.get r t!"cmd_and_args" = some (.many (((c :: program) :: args).map .val)) := by
  have hs : step [] { node := programCommand, buf := (c :: program) :: args } (c :: program) args
      = .ok { node := programCommand, buf := [], index := 1,
              args := Dict.put [] t!"cmd_and_args" (.many (((c :: program) :: args).map .val)) } := by
    simp only [step, List.head?_cons, Option.some.injEq, hm, hp, if_false, programCommand, Node.children, Node.positional,
      Node.cmd, Dict.get, List.getElem?_cons_zero, readPositional_all]
  obtain ⟨r, hr, hg⟩ := finish_get (St.mk programCommand [] (Dict.put [] t!"cmd_and_args" (.many (((c :: program) :: args).map .val))) 1 [] []) _ rfl rfl rfl rfl
  refine ⟨r, ?_, ?_⟩
  · have : size ((c :: program) :: args) = (size ((c :: program) :: args) - 1) + 1 := by simp [size]; omega
    rw [Cli.parse, this, loop]
    simp only [hs]
    rw [loop_end _ _ (.inl rfl), hr]
  · rw [hg _ (by decide)]
    simp [Dict.get_put]

/-- The arguments of a task: as they are, if the first of them is neither empty nor looks like an option or a field. -/
theorem task_arguments_partial (task : Text) (c : Char) (a : Text) (args : List Text) (ht : task.head? = some '@')
    (hm : c ≠ '-') (hp : c ≠ '+') :
    ∃ r, Cli.parse [] taskCommand (task :: (c :: a) :: args) = .ok [([], r)] ∧
      Dict.get r t!"task" = some (.val task) ∧
      Dict.get r t!"args" = some (.many (((c :: a) :: args).map .val)) := by
  obtain ⟨t, rfl⟩ : ∃ t, task = '@' :: t := by
    cases task with
    | nil => simp at ht
    | cons x t => simp at ht; exact ⟨t, by rw [ht]⟩
  have hs1 : step [] { node := taskCommand, buf := ('@' :: t) :: (c :: a) :: args } ('@' :: t) ((c :: a) :: args)
      = .ok { node := taskCommand, buf := (c :: a) :: args, index := 1, args := Dict.put [] t!"task" (.val ('@' :: t)) } := by
    simp [step, taskCommand, Node.children, Node.positional, Node.cmd, Dict.get, readPositional_one]
  have hs2 : step [] { node := taskCommand, buf := (c :: a) :: args, index := 1, args := Dict.put [] t!"task" (.val ('@' :: t)) }
        (c :: a) args
      = .ok { node := taskCommand, buf := [], index := 2,
              args := Dict.put (Dict.put [] t!"task" (.val ('@' :: t))) t!"args" (.many (((c :: a) :: args).map .val)) } := by
    simp only [step, List.head?_cons, Option.some.injEq, hm, hp, if_false, taskCommand, Node.children, Node.positional,
      Node.cmd, Dict.get, List.getElem?_cons_zero, List.getElem?_cons_succ, readPositional_all]
  obtain ⟨r, hr, hg⟩ := finish_get (St.mk taskCommand [] (Dict.put (Dict.put [] t!"task" (.val ('@' :: t))) t!"args" (.many (((c :: a) :: args).map .val))) 2 [] []) _ rfl rfl rfl rfl
  refine ⟨r, ?_, ?_, ?_⟩
  · have : size (('@' :: t) :: (c :: a) :: args) = (size (('@' :: t) :: (c :: a) :: args) - 2) + 1 + 1 := by
      simp [size]; omega
    rw [Cli.parse, this, loop]
    simp only [hs1]
    rw [loop]
    simp only [hs2]
    rw [loop_end _ _ (.inl rfl), hr]
  · rw [hg _ (by decide)]
    simp [Dict.get_put]
  · rw [hg _ (by decide)]
    simp [Dict.get_put]

/-- The claim "the arguments of a task are passed to it" fails if the first is empty: it and all others are dropped. -/
theorem task_empty_violated (args : List Text) :
    ∃ r, Cli.parse [] taskCommand (t!"@t" :: [] :: args) = .ok [([], r)] ∧ Dict.get r t!"args" = some (.many []) := by
  have hs1 : step [] { node := taskCommand, buf := t!"@t" :: [] :: args } t!"@t" ([] :: args)
      = .ok { node := taskCommand, buf := [] :: args, index := 1, args := Dict.put [] t!"task" (.val t!"@t") } := by
    simp [step, taskCommand, Node.children, Node.positional, Node.cmd, Dict.get, readPositional_one]
  have : size (t!"@t" :: [] :: args) = (size (t!"@t" :: [] :: args) - 1) + 1 := by simp [size]; omega
  rw [Cli.parse, this, loop]
  simp only [hs1]
  rw [loop_end _ _ (.inr ⟨args, rfl⟩)]
  exact ⟨_, rfl, rfl⟩

/-- It fails if the first is an option: it is taken for one of `pkm run`, which has none. -/
theorem task_option_violated (o : Text) (args : List Text) (ho : o ≠ t!"help") (hn : NameOk ('-' :: '-' :: o)) :
    Cli.parse [] taskCommand (t!"@t" :: ('-' :: '-' :: o) :: args) = .error (.unknownOption ('-' :: '-' :: o)) := by
  have hs1 : step [] { node := taskCommand, buf := t!"@t" :: ('-' :: '-' :: o) :: args } t!"@t" (('-' :: '-' :: o) :: args)
      = .ok { node := taskCommand, buf := ('-' :: '-' :: o) :: args, index := 1, args := Dict.put [] t!"task" (.val t!"@t") } := by
    simp [step, taskCommand, Node.children, Node.positional, Node.cmd, Dict.get, readPositional_one]
  have hf : findOption ([] : Text) [] ('-' :: '-' :: o) = none := by
    have : '-' :: '-' :: o ∉ (helpOption ([] : Text)).names := by
      simp [helpOption]
      exact ho
    simp [findOption, this]
  have hs2 : step [] { node := taskCommand, buf := ('-' :: '-' :: o) :: args, index := 1, args := Dict.put [] t!"task" (.val t!"@t") }
        ('-' :: '-' :: o) args = .error (.unknownOption ('-' :: '-' :: o)) := by
    simp only [step, List.head?_cons, if_true, taskCommand, Node.options, Node.cmd, readOptionOrFlag,
      optionKey_name _ hn, hf]
  have : size (t!"@t" :: ('-' :: '-' :: o) :: args) = (size (t!"@t" :: ('-' :: '-' :: o) :: args) - 2) + 1 + 1 := by
    simp [size]; omega
  rw [Cli.parse, this, loop]
  simp only [hs1]
  rw [loop]
  simp only [hs2]

example : (t!"all" : Text) ≠ t!"help" ∧ NameOk t!"--all" := by
  refine ⟨by decide, by decide, ?_⟩
  constructor <;> decide

end Pkm
