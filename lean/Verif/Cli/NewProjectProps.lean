import Verif.Cli.NewProject
import Verif.Cli.TemplatesProps
import Verif.Names.Props
/-
The files of a new project say what was answered (C112).
-/
set_option linter.unusedVariables false
set_option linter.unusedSimpArgs false
namespace Pkm

/-! ### specification -/
namespace Spec
open Pkm.Toml Pkm.NewProject

/-- A text that means itself between double quotes of TOML. -/
def Unquoted (s : Text) : Prop := ∀ c ∈ s, c ≠ '"' ∧ c ≠ '\\' ∧ c ≠ '\n' ∧ c ≠ '\r' ∧ c.toNat ≠ 0

instance (s : Text) : Decidable (Unquoted s) := inferInstanceAs (Decidable (∀ c ∈ s, _))

/-- The configuration a project with these answers should have, with the text of the license as it is given. -/
def answered (a : Answers) (license : Text) : List (Text × TV) :=
  [(t!"project", .table [
      (t!"name", .str a.projectName),
      (t!"version", .str a.version),
      (t!"description", .str a.description),
      (t!"readme", .str (if a.markdown then t!"README.md" else t!"README.rst")),
      (t!"requires-python", .str (t!"~=" ++ a.requiredPython)),
      (t!"authors", .list [.table [(t!"name", .str a.author)]]),
      (t!"license", .table [(t!"text", .str license)]),
      (t!"dependencies", .list [])]),
   (t!"build-system", .table [
      (t!"requires", .list [.str t!"pkm"]),
      (t!"build-backend", .str t!"pkm.api.buildsys")])]

end Spec

namespace NewProject
open Spec Toml Templates

/-! ### reading a text between quotes -/

theorem scanBasic_plain (s r : Text) (h : Unquoted s) : scanBasic false (s ++ '"' :: r) = some (s, r) := by
  induction s with
  | nil => simp [scanBasic]
  | cons c s ih =>
    have hc := h c (by simp)
    have hs : Unquoted s := fun d hd => h d (by simp [hd])
    have e : (c == '\\') = false := by simp [hc.2.1]
    simp [scanBasic, hc.1, e, ih hs]

theorem unescape_plain (s : Text) (h : Unquoted s) : unescape .plain s = some s := by
  induction s with
  | nil => rfl
  | cons c s ih =>
    have hc := h c (by simp)
    have hs : Unquoted s := fun d hd => h d (by simp [hd])
    simp [unescape, hc.1, hc.2.1, hc.2.2.1, hc.2.2.2.1, hc.2.2.2.2, ih hs]

theorem readStr_plain (s r : Text) (h : Unquoted s) (hr : ∀ u, r ≠ '"' :: u) : readStr ('"' :: (s ++ '"' :: r)) = some (s, r) := by
  have hp : (['"', '"'] : Text).isPrefixOf (s ++ '"' :: r) = false := by
    cases s with
    | nil =>
      cases r with
      | nil => rfl
      | cons c r =>
        have : c ≠ '"' := fun e => hr r (by rw [e])
        simp [List.isPrefixOf, Ne.symm this]
    | cons c s =>
      have := (h c (by simp)).1
      simp [List.isPrefixOf, Ne.symm this]
  simp [readStr, hp, scanBasic_plain s r h, unescape_plain s h]

theorem readBare_plain (f : Nat) (s r : Text) (h : Unquoted s) (hr : ∀ u, r ≠ '"' :: u) :
    readBare (f + 1) ('"' :: (s ++ '"' :: r)) = some (.str s, r) := by
  have e : readBare (f + 1) ('"' :: (s ++ '"' :: r)) = (readStr ('"' :: (s ++ '"' :: r))).map (fun x => (.str x.1, x.2)) := rfl
  rw [e, readStr_plain s r h hr]; rfl

/-- A value in quotes after white space. -/
theorem readValue_plain (f : Nat) (t s r : Text) (h : Unquoted s) (hr : ∀ u, r ≠ '"' :: u)
    (h1 : nonData true false t = some ('"' :: (s ++ '"' :: r))) (h2 : nonData false false r = some r) :
    readValue (f + 2) t = some (.str s, r) := by
  rw [readValue, h1]
  dsimp only
  rw [readBare_plain f s r h hr]
  dsimp only
  rw [h2]; rfl

/-- A line `key = value` of a table. -/
theorem readAssignments_line (f : Nat) (t r r1 : Text) (c : Char) (u : Text) (ks : List Text) (v : TV) (acc acc' : List (Text × TV))
    (h1 : nonData true false t = some (c :: u)) (h2 : c ≠ '[') (h3 : readKey t = some (ks, .assignment, '=' :: r1))
    (h4 : readValue f r1 = some (v, '\n' :: r)) (h5 : enter (ks.map .key) v acc = some acc') :
    readAssignments (f + 1) false t acc = readAssignments f false r acc' := by
  rw [readAssignments, h1]
  simp only [h3, h4, h5]
  split
  · rename_i h; simp at h
  · rename_i h; simp at h
  · rename_i h; simp only [Option.some.injEq, List.cons.injEq] at h; exact absurd h.1 h2
  · simp

/-- A line `key = "text"` of a table. -/
theorem readAssignments_text (f : Nat) (t r s r1 : Text) (c : Char) (u k : Text) (acc : List (Text × TV))
    (h1 : nonData true false t = some (c :: u)) (h2 : c ≠ '[')
    (h3 : readKey t = some ([k], .assignment, '=' :: r1)) (h4 : nonData true false r1 = some ('"' :: (s ++ '"' :: '\n' :: r)))
    (h : Unquoted s) :
    readAssignments (f + 3) false t acc = readAssignments (f + 2) false r (Dict.put acc k (.str s)) :=
  readAssignments_line (f + 2) t r r1 c u [k] (.str s) acc _ h1 h2 h3
    (readValue_plain f r1 s ('\n' :: r) h (by simp) h4 rfl) rfl

/-- The value `[{name="text"}]`. -/
theorem readValue_author (f : Nat) (s r : Text) (h : Unquoted s) :
    readValue (f + 8) (t!" [{name=\"" ++ (s ++ (t!"\"}]\n" ++ r))) =
      some (.list [.table [(t!"name", .str s)]], '\n' :: r) := by
  have a1 : readAssignments (f + 3) true (t!"name=\"" ++ (s ++ (t!"\"}]\n" ++ r))) [] =
      some ([(t!"name", .str s)], t!"}]\n" ++ r) := by
    have e1 : nonData true false (t!"name=\"" ++ (s ++ (t!"\"}]\n" ++ r))) = some (t!"name=\"" ++ (s ++ (t!"\"}]\n" ++ r))) := rfl
    have e2 : readKey (t!"name=\"" ++ (s ++ (t!"\"}]\n" ++ r))) =
        some ([t!"name"], .assignment, '=' :: '"' :: (s ++ '"' :: (t!"}]\n" ++ r))) := rfl
    have e3 := readValue_plain f ('"' :: (s ++ '"' :: (t!"}]\n" ++ r))) s (t!"}]\n" ++ r) h (by simp) rfl rfl
    rw [readAssignments, e1]
    simp only [e2, e3]
    rfl
  have a2 : readValue (f + 5) (t!"{name=\"" ++ (s ++ (t!"\"}]\n" ++ r))) =
      some (.table [(t!"name", .str s)], t!"]\n" ++ r) := by
    have e1 : nonData true false (t!"{name=\"" ++ (s ++ (t!"\"}]\n" ++ r))) = some (t!"{name=\"" ++ (s ++ (t!"\"}]\n" ++ r))) := rfl
    have e2 : readBare (f + 4) (t!"{name=\"" ++ (s ++ (t!"\"}]\n" ++ r))) =
      (match readAssignments (f + 3) true (t!"name=\"" ++ (s ++ (t!"\"}]\n" ++ r))) [] with
        | some (es, '}' :: r') => (nonData false false r').map (fun r'' => (.table es, r''))
        | _ => none) := rfl
    rw [readValue, e1]
    dsimp only
    rw [e2, a1]
    rfl
  have a3 : readList (f + 6) (t!"{name=\"" ++ (s ++ (t!"\"}]\n" ++ r))) [] =
      some (.list [.table [(t!"name", .str s)]], '\n' :: r) := by
    have e1 : readList (f + 6) (t!"{name=\"" ++ (s ++ (t!"\"}]\n" ++ r))) [] =
      (match readValue (f + 5) (t!"{name=\"" ++ (s ++ (t!"\"}]\n" ++ r))) with
      | none => none
      | some (v, r) =>
        match nonData true false r with
        | none => none
        | some (',' :: ' ' :: r') => readList (f + 5) r' ([] ++ [v])
        | some (',' :: r') => readList (f + 5) r' ([] ++ [v])
        | some (']' :: r') => (nonData false false r').map (fun r'' => (.list ([] ++ [v]), r''))
        | some _ => none) := rfl
    rw [e1, a2]
    rfl
  have e1 : nonData true false (t!" [{name=\"" ++ (s ++ (t!"\"}]\n" ++ r))) = some (t!"[{name=\"" ++ (s ++ (t!"\"}]\n" ++ r))) := rfl
  have e2 : readBare (f + 7) (t!"[{name=\"" ++ (s ++ (t!"\"}]\n" ++ r))) =
    readList (f + 6) (t!"{name=\"" ++ (s ++ (t!"\"}]\n" ++ r))) [] := rfl
  rw [readValue, e1]
  dsimp only
  rw [e2, a3]
  rfl

set_option maxRecDepth 100000 in
theorem rendered (a : Answers) (ctx : Context) (h : setup a = some ctx) :
    (jinja ctx).body pyprojectTmpl =
      t!"[project]\nname = \"" ++ (a.projectName ++ (t!"\"\nversion = \"" ++ (a.version ++ (t!"\"\ndescription = \"" ++
      (a.description ++ (t!"\"\nreadme = \"README." ++ ((if a.markdown then t!"md" else t!"rst") ++
      (t!"\"\nrequires-python= \"~=" ++ (a.requiredPython ++ (t!"\"\nauthors = [{name=\"" ++ (a.author ++
      (t!"\"}]\nlicense.text = \"" ++ ([] ++
      t!"\"\ndependencies = []\n\n[build-system]\nrequires=[\"pkm\"]\nbuild-backend = \"pkm.api.buildsys\""
      ))))))))))))) := by
  unfold setup at h
  split at h
  · simp at h
  · simp only [Option.some.injEq] at h
    subst h
    rfl

theorem unquoted_append {a b : Text} (ha : Unquoted a) (hb : Unquoted b) : Unquoted (a ++ b) := by
  intro c hc
  rcases List.mem_append.1 hc with h | h
  · exact ha c h
  · exact hb c h

theorem build_table (n : Nat) :
    readTable (n + 40) t!"[build-system]\nrequires=[\"pkm\"]\nbuild-backend = \"pkm.api.buildsys\"" =
      some ([.key t!"build-system"], [(t!"requires", .list [.str t!"pkm"]), (t!"build-backend", .str t!"pkm.api.buildsys")], []) := by
  rfl

theorem project_entries (a : Answers) (n : Nat) (h1 : Unquoted a.projectName) (h2 : Unquoted a.version)
    (h3 : Unquoted a.description) (h4 : Unquoted a.requiredPython) (h5 : Unquoted a.author) (ext rest : Text) (he : Unquoted ext) :
    readAssignments (n + 40) false
      (t!"name = \"" ++ (a.projectName ++ (t!"\"\nversion = \"" ++ (a.version ++ (t!"\"\ndescription = \"" ++
      (a.description ++ (t!"\"\nreadme = \"README." ++ (ext ++
      (t!"\"\nrequires-python= \"~=" ++ (a.requiredPython ++ (t!"\"\nauthors = [{name=\"" ++ (a.author ++
      (t!"\"}]\nlicense.text = \"\"\ndependencies = []\n\n[" ++ rest))))))))))))) [] =
      some ([
        (t!"name", .str a.projectName),
        (t!"version", .str a.version),
        (t!"description", .str a.description),
        (t!"readme", .str (t!"README." ++ ext)),
        (t!"requires-python", .str (t!"~=" ++ a.requiredPython)),
        (t!"authors", .list [.table [(t!"name", .str a.author)]]),
        (t!"license", .table [(t!"text", .str [])]),
        (t!"dependencies", .list [])], '[' :: rest) := by
  have hr : Unquoted (t!"README." ++ ext) := unquoted_append (by decide) he
  have hp : Unquoted (t!"~=" ++ a.requiredPython) := unquoted_append (by decide) h4
  refine (readAssignments_text (n + 37) _ _ a.projectName _ 'n' _ t!"name" [] rfl (by decide) rfl rfl h1).trans ?_
  refine (readAssignments_text (n + 36) _ _ a.version _ 'v' _ t!"version" _ rfl (by decide) rfl rfl h2).trans ?_
  refine (readAssignments_text (n + 35) _ _ a.description _ 'd' _ t!"description" _ rfl (by decide) rfl rfl h3).trans ?_
  refine (readAssignments_text (n + 34) _ _ (t!"README." ++ ext) _ 'r' _ t!"readme" _ rfl (by decide) rfl rfl hr).trans ?_
  refine (readAssignments_text (n + 33) _ _ (t!"~=" ++ a.requiredPython) _ 'r' _ t!"requires-python" _ rfl (by decide) rfl rfl hp).trans ?_
  refine (readAssignments_line (n + 34) _ _ _ 'a' _ [t!"authors"] _ _ _ rfl (by decide) rfl
    (readValue_author (n + 26) a.author _ h5) rfl).trans ?_
  rfl

theorem exists_fuel {x k : Nat} (h : k ≤ x) : ∃ n, x = n + k := ⟨x - k, by omega⟩

theorem loads_two (body : Text) (es : List (Text × TV)) (hb : 10 ≤ body.length)
    (h : ∀ n, readAssignments (n + 40) false body [] =
      some (es, t!"[build-system]\nrequires=[\"pkm\"]\nbuild-backend = \"pkm.api.buildsys\"")) :
    loads (t!"[project]\n" ++ body) = some [(t!"project", .table es),
      (t!"build-system", .table [(t!"requires", .list [.str t!"pkm"]), (t!"build-backend", .str t!"pkm.api.buildsys")])] := by
  have hl : 20 ≤ (t!"[project]\n" ++ body).length := by rw [List.length_append]; simp; omega
  obtain ⟨n, hn⟩ := exists_fuel (x := 4 * (t!"[project]\n" ++ body).length + 4) (k := 40) (by omega)
  obtain ⟨m, hm⟩ := exists_fuel (x := (t!"[project]\n" ++ body).length + 1) (k := 3) (by omega)
  have e1 : nonData true false (t!"[project]\n" ++ body) = some (t!"[project]\n" ++ body) := rfl
  have e2 : readAssignments (n + 40) false (t!"[project]\n" ++ body) [] = some ([], t!"[project]\n" ++ body) := rfl
  have e3 : readKey (t!"[project]\n" ++ body) = some ([t!"project"], .table, '\n' :: body) := rfl
  have e4 : readTable (n + 40) (t!"[project]\n" ++ body) = some ([.key t!"project"], es,
      t!"[build-system]\nrequires=[\"pkm\"]\nbuild-backend = \"pkm.api.buildsys\"") := by
    rw [readTable, e3]
    show Option.map (fun x => (fullKey [t!"project"] .table, x.1, x.2)) (readAssignments (n + 40) false body []) = _
    rw [h n]
    rfl
  have e5 : readTables (n + 40) (m + 2) t!"[build-system]\nrequires=[\"pkm\"]\nbuild-backend = \"pkm.api.buildsys\""
      [(t!"project", .table es)] = some [(t!"project", .table es),
      (t!"build-system", .table [(t!"requires", .list [.str t!"pkm"]), (t!"build-backend", .str t!"pkm.api.buildsys")])] := by
    rw [readTables, build_table n]
    rfl
  rw [loads, e1]
  dsimp only
  rw [hn, hm, e2]
  dsimp only
  rw [readTables, e1]
  simp only [e4]
  exact e5

set_option maxRecDepth 10000 in
theorem project_read (a : Answers) (ctx : Context) (h : setup a = some ctx) (h1 : Unquoted a.projectName)
    (h2 : Unquoted a.version) (h3 : Unquoted a.description) (h4 : Unquoted a.requiredPython) (h5 : Unquoted a.author) :
    loads ((jinja ctx).body pyprojectTmpl) = some (answered a []) := by
  rw [rendered a ctx h]
  generalize hx : (if a.markdown then t!"md" else t!"rst") = ext
  have he : Unquoted ext := by rw [← hx]; cases a.markdown <;> decide
  have hreadme : t!"README." ++ ext = if a.markdown then t!"README.md" else t!"README.rst" := by
    rw [← hx]; cases a.markdown <;> rfl
  have := fun n => project_entries a n h1 h2 h3 h4 h5 ext
    t!"build-system]\nrequires=[\"pkm\"]\nbuild-backend = \"pkm.api.buildsys\"" he
  have key := loads_two _ _ (by rw [List.length_append, List.length_append, List.length_append, List.length_append]; simp only [List.length_cons, List.length_nil]; omega) this
  rw [hreadme] at key
  exact key

/-! ### the files -/

/-- What the template makes. -/
def made (a : Answers) (ctx : Context) (p : Text) : List (Path × Item) :=
  [([a.projectName], .dir),
   ([a.projectName, t!"pyproject.toml"], .file ((jinja ctx).body pyprojectTmpl)),
   ([a.projectName, if a.markdown then t!"README.md" else t!"README.rst"], .file []),
   ([a.projectName, t!"src"], .dir),
   ([a.projectName, t!"src", p], .dir),
   ([a.projectName, t!"src", p, t!"__init__.py"], .file []),
   ([a.projectName, t!"src", p, t!"main.py"], .file ((jinja ctx).body mainTmpl))]

theorem src_ne_nil {n p : Text} (h : srcPackageName n = some p) : p ≠ [] := by
  unfold srcPackageName normalizeName at h
  rintro rfl
  dsimp only at h
  split at h
  · simp at h
  · rename_i hne
    simp only [Option.map_some, Option.some.injEq, List.map_eq_nil_iff] at h
    rw [h] at hne
    simp at hne

theorem setup_some (a : Answers) (p : Text) (h : srcPackageName a.projectName = some p) : ∃ ctx, setup a = some ctx ∧
    (jinja ctx).name t!"{{project_name}}" = a.projectName ∧ (jinja ctx).name t!"{{package_name}}" = p ∧
    (jinja ctx).name t!"README.{{readme_file_ext}}" = (if a.markdown then t!"README.md" else t!"README.rst") := by
  unfold setup
  rw [h]
  refine ⟨_, rfl, ?_, ?_, ?_⟩
  · exact List.append_nil _
  · exact List.append_nil _
  · cases a.markdown <;> rfl

theorem out_made (a : Answers) (ctx : Context) (p : Text) (hn : a.projectName ≠ []) (hp : p ≠ [])
    (h1 : (jinja ctx).name t!"{{project_name}}" = a.projectName) (h2 : (jinja ctx).name t!"{{package_name}}" = p)
    (h3 : (jinja ctx).name t!"README.{{readme_file_ext}}" = (if a.markdown then t!"README.md" else t!"README.rst")) :
    templateOut (jinja ctx) (ignored (jinja ctx) projectTree) projectTree [] = made a ctx p := by
  have i1 : ∀ q, ignored (jinja ctx) projectTree q = defaultIgnored.contains q := fun q => rfl
  have n1 : (jinja ctx).name t!"src" = t!"src" := rfl
  have n2 : (jinja ctx).name t!"__init__.py" = t!"__init__.py" := rfl
  have n3 : (jinja ctx).name t!"main.py.tmpl" = t!"main.py.tmpl" := rfl
  have n4 : (jinja ctx).name t!"pyproject.toml.tmpl" = t!"pyproject.toml.tmpl" := rfl
  have b1 : tmplBase (if a.markdown then t!"README.md" else t!"README.rst") = none := by cases a.markdown <;> decide
  have b2 : tmplBase t!"__init__.py" = none := by decide
  have b3 : tmplBase t!"main.py.tmpl" = some t!"main.py" := by decide
  have b4 : tmplBase t!"pyproject.toml.tmpl" = some t!"pyproject.toml" := by decide
  have b5 : (if a.markdown then t!"README.md" else t!"README.rst") ≠ [] := by cases a.markdown <;> decide
  rw [show ignored (jinja ctx) projectTree = defaultIgnored.contains from funext i1]
  unfold projectTree made
  simp only [templateOut, leftOut, fileOut, h1, h2, h3, n1, n2, n3, n4, b1, b2, b3, b4]
  simp [defaultIgnored, hn, hp, b5]

theorem mem_subDash (run : Bool) (s : Text) (c : Char) (h : c ∈ subDash run s) : nameChar c = true ∨ c = '-' := by
  induction s generalizing run with
  | nil => simp [subDash] at h
  | cons x s ih =>
    unfold subDash at h
    split at h
    · rename_i hx
      rcases List.mem_cons.1 h with h | h
      · subst h; exact Or.inl hx
      · exact ih _ h
    · split at h
      · exact ih _ h
      · rcases List.mem_cons.1 h with h | h
        · exact Or.inr h
        · exact ih _ h

theorem src_name {n p : Text} (h : srcPackageName n = some p) : OneName p := by
  have hc : ∀ c ∈ p, c ≠ '/' ∧ c ≠ '.' := by
    unfold srcPackageName normalizeName at h
    dsimp only at h
    split at h
    · simp at h
    · simp only [Option.map_some, Option.some.injEq] at h
      subst h
      intro c hc
      obtain ⟨d, hd, rfl⟩ := List.mem_map.1 hc
      obtain ⟨x, y, e⟩ := stripChar_infix '-' (subDash false n)
      have := mem_subDash false n d (by rw [e]; simp [hd])
      rcases this with h | h
      · have hd : d ≠ '/' := by rintro rfl; revert h; decide
        have hm : d ≠ '-' := by rintro rfl; revert h; decide
        by_cases hp : d = '.'
        · subst hp; decide
        · simp [hm, hp, hd]
      · subst h; decide
  refine ⟨src_ne_nil h, fun hm => (hc _ hm).1 rfl, ?_, ?_⟩
  · rintro rfl; exact (hc '.' (by simp)).2 rfl
  · rintro rfl; exact (hc '.' (by simp)).2 rfl

theorem tidy (a : Answers) (ctx : Context) (p : Text) (hn : OneName a.projectName) (hp : OneName p)
    (h1 : (jinja ctx).name t!"{{project_name}}" = a.projectName) (h2 : (jinja ctx).name t!"{{package_name}}" = p)
    (h3 : (jinja ctx).name t!"README.{{readme_file_ext}}" = (if a.markdown then t!"README.md" else t!"README.rst")) :
    TidyTemplate (jinja ctx) (ignored (jinja ctx) projectTree) projectTree [] := by
  have i1 : ∀ q, ignored (jinja ctx) projectTree q = defaultIgnored.contains q := fun q => rfl
  have n1 : (jinja ctx).name t!"src" = t!"src" := rfl
  have n2 : (jinja ctx).name t!"__init__.py" = t!"__init__.py" := rfl
  have n3 : (jinja ctx).name t!"main.py.tmpl" = t!"main.py.tmpl" := rfl
  have n4 : (jinja ctx).name t!"pyproject.toml.tmpl" = t!"pyproject.toml.tmpl" := rfl
  have b1 : tmplBase (if a.markdown then t!"README.md" else t!"README.rst") = none := by cases a.markdown <;> decide
  have b2 : tmplBase t!"__init__.py" = none := by decide
  have b3 : tmplBase t!"main.py.tmpl" = some t!"main.py" := by decide
  have b4 : tmplBase t!"pyproject.toml.tmpl" = some t!"pyproject.toml" := by decide
  have b5 : OneName (if a.markdown then t!"README.md" else t!"README.rst") := by cases a.markdown <;> simp [OneName]
  have b6 : (if a.markdown then t!"README.md" else t!"README.rst") ≠ t!"src" := by cases a.markdown <;> decide
  have b7 : (if a.markdown then t!"README.md" else t!"README.rst") ≠ t!"pyproject.toml" := by cases a.markdown <;> decide
  have o1 : OneName t!"src" := by simp [OneName]
  have o2 : OneName t!"__init__.py" := by simp [OneName]
  have o3 : OneName t!"main.py.tmpl" := by simp [OneName]
  have o4 : OneName t!"pyproject.toml.tmpl" := by simp [OneName]
  have o5 : OneName t!"main.py" := by simp [OneName]
  have o6 : OneName t!"pyproject.toml" := by simp [OneName]
  have l1 : leftOut (jinja ctx) defaultIgnored.contains [t!"render.py"] t!"render.py" = true := rfl
  rw [show ignored (jinja ctx) projectTree = defaultIgnored.contains from funext i1]
  unfold projectTree
  simp only [TidyTemplate, topNames, fileOut, h1, h2, h3, n1, n2, n3, n4, b1, b2, b3, b4, hn, hp, b5, o1, o2, o3, o4, o5, o6,
    List.nil_append, l1, Tree.hasChild]
  simp [leftOut, defaultIgnored, b5.1, hp.1, hn.1, n1, n2, n3, h1, h2, h3, n4, Ne.symm b7, b7, b6]

theorem greeting (a : Answers) (ctx : Context) (h : setup a = some ctx) : (jinja ctx).body mainTmpl =
    t!"if __name__ == '__main__':\n    print(\"Hello " ++ a.projectName ++ t!"\")" := by
  unfold setup at h
  split at h
  · simp at h
  · simp only [Option.some.injEq] at h
    subst h
    rw [List.append_assoc]
    rfl

theorem fits (a : Answers) (ctx : Context) (p : Text) (f : Disk) (target : Path)
    (hfree : ∀ q, target ++ [a.projectName] <+: q → f.get q = none) :
    ∀ r i, (r, i) ∈ made a ctx p → target ++ [a.projectName] <+: target ++ r ∧ f.get (target ++ r) = none := by
  intro r i h
  have : ∃ u, r = a.projectName :: u := by
    simp only [made, List.mem_cons, Prod.mk.injEq, List.not_mem_nil, or_false] at h
    rcases h with h | h | h | h | h | h | h <;> exact ⟨_, h.1⟩
  obtain ⟨u, rfl⟩ := this
  have hx : target ++ [a.projectName] <+: target ++ (a.projectName :: u) := ⟨u, by simp⟩
  exact ⟨hx, hfree _ hx⟩

/-! ### C112 -/

/-- C112: for answers without quotes, backslashes and line ends, and where there is nothing with the name of the project yet,
the new project has a `pyproject.toml` that reads as the answers (but for the license, which is empty, see
`new_project_license_violated`), the readme, and the package with its main module, and nothing else is changed.
Missing: the license, and answers with quotes and backslashes. -/
theorem new_project_partial (a : Answers) (p : Text) (f : Disk) (tmp target : Path) (hw : f.Wf) (hd : DirAt f target)
    (hn : NewTmp f tmp target) (ho : OneName a.projectName) (hp : srcPackageName a.projectName = some p)
    (hfree : ∀ q, target ++ [a.projectName] <+: q → f.get q = none)
    (h1 : Unquoted a.projectName) (h2 : Unquoted a.version) (h3 : Unquoted a.description) (h4 : Unquoted a.requiredPython)
    (h5 : Unquoted a.author) :
    (newProject a f tmp target).2 = true ∧
    (∃ t, (newProject a f tmp target).1.get (target ++ [a.projectName, t!"pyproject.toml"]) = some (.file t) ∧
      loads t = some (answered a [])) ∧
    (newProject a f tmp target).1.get (target ++ [a.projectName, if a.markdown then t!"README.md" else t!"README.rst"]) =
      some (.file []) ∧
    (newProject a f tmp target).1.get (target ++ [a.projectName, t!"src", p, t!"__init__.py"]) = some (.file []) ∧
    (newProject a f tmp target).1.get (target ++ [a.projectName, t!"src", p, t!"main.py"]) =
      some (.file (t!"if __name__ == '__main__':\n    print(\"Hello " ++ a.projectName ++ t!"\")")) ∧
    ∀ q, ¬ target ++ [a.projectName] <+: q → (newProject a f tmp target).1.get q = f.get q := by
  obtain ⟨ctx, hs, c1, c2, c3⟩ := setup_some a p hp
  have ht := tidy a ctx p ho (src_name hp) c1 c2 c3
  have hout := out_made a ctx p ho.1 (src_ne_nil hp) c1 c2 c3
  have hf := fits a ctx p f target hfree
  have hnew : newProject a f tmp target = execute (jinja ctx) projectTree f tmp target false := by
    unfold newProject; rw [hs]
  obtain ⟨r1, r2, r3⟩ := template_rendered_partial (jinja ctx) projectTree f tmp target hw hd ht hn
    (by rw [hout]; intro r i k h e; rw [(hf r i h).2] at e; simp at e)
    (by rw [hout]; intro r i c h e; rw [(hf r i h).2] at e; simp at e)
  rw [hout] at r2 r3
  rw [hnew]
  refine ⟨r1, ⟨_, r2 _ _ (by simp [made]), project_read a ctx hs h1 h2 h3 h4 h5⟩, r2 _ _ (by simp [made]), r2 _ _ (by simp [made]), ?_, ?_⟩
  · rw [← greeting a ctx hs]
    exact r2 _ _ (by simp [made])
  · intro q hq
    refine r3 q (fun r i h e => hq ?_)
    rw [e]
    exact (hf r i h).1

/-- C112: where the project has a `pyproject.toml` already, nothing is changed. -/
theorem new_project_exists (a : Answers) (f : Disk) (tmp target : Path) (c : Text) (hw : f.Wf)
    (hn : NewTmp f tmp target) (ho : OneName a.projectName)
    (hc : f.get (target ++ [a.projectName, t!"pyproject.toml"]) = some (.file c)) :
    (newProject a f tmp target).2 = false ∧ ∀ q, (newProject a f tmp target).1.get q = f.get q := by
  unfold newProject
  cases hs : srcPackageName a.projectName with
  | none => simp [setup, hs]
  | some p =>
    obtain ⟨ctx, hs', c1, c2, c3⟩ := setup_some a p hs
    rw [hs']
    exact template_conflict (jinja ctx) projectTree f tmp target hw (tidy a ctx p ho (src_name hs) c1 c2 c3) hn
      [a.projectName, t!"pyproject.toml"] _ c
      (by rw [out_made a ctx p ho.1 (src_ne_nil hs) c1 c2 c3]; exact List.mem_cons_of_mem _ List.mem_cons_self) hc

/-- C112: the configuration of a new zoo says whether packages are shared, the one of a new group has no projects. -/
theorem new_zoo_group (name : Text) (sharing : Bool) :
    loads ((jinja (zooSetup name sharing)).body zooTmpl) = some [(t!"package-sharing", .table [(t!"enabled", .bool sharing)])] ∧
    loads ((jinja [(t!"group_name", name)]).body groupTmpl) = some [(t!"project-group", .table [(t!"children", .list [])])] := by
  cases sharing <;> exact ⟨rfl, rfl⟩

namespace Example

/-- Usual answers. -/
def mine : Answers where
  projectName := t!"my.tool"
  version := t!"0.1.0"
  description := t!"It's a tool (really)"
  markdown := true
  requiredPython := t!"3.10"
  author := t!"Zoë"
  license := t!"MIT License"

def disk : Disk := [([t!"home"], .dir), ([t!"home", t!"x"], .file t!"1"), ([t!"tmp"], .dir)]

example : ∃ p, srcPackageName mine.projectName = some p ∧ OneName mine.projectName ∧ Unquoted mine.projectName ∧
    Unquoted mine.version ∧ Unquoted mine.description ∧ Unquoted mine.requiredPython ∧ Unquoted mine.author :=
  ⟨t!"my_tool", rfl, by simp [OneName, mine], by decide, by decide, by decide, by decide, by decide⟩

example : DirAt disk [t!"home"] ∧ NewTmp disk [t!"tmp", t!"y"] [t!"home"] ∧
    ∀ q, [t!"home"] ++ [mine.projectName] <+: q → disk.get q = none := by
  refine ⟨?_, ⟨?_, by decide, by decide⟩, ?_⟩
  · intro p hp
    obtain ⟨u, hu⟩ := hp
    cases p with
    | nil => exact Or.inl rfl
    | cons x p =>
      simp at hu
      obtain ⟨rfl, rfl, -⟩ := hu
      exact Or.inr rfl
  · rintro q ⟨u, rfl⟩; simp [disk, Dict.get]
  · rintro q ⟨u, rfl⟩; simp [disk, Dict.get, mine]

end Example

/-- C112 is violated: the text of the license is lost, whatever it is: the template has the variable `license`, and `setup` has
`license_text`. -/
theorem new_project_license_violated (a : Answers) (ctx : Context) (h : setup a = some ctx) (h1 : Unquoted a.projectName)
    (h2 : Unquoted a.version) (h3 : Unquoted a.description) (h4 : Unquoted a.requiredPython) (h5 : Unquoted a.author)
    (hl : a.license ≠ []) : loads ((jinja ctx).body pyprojectTmpl) ≠ some (answered a a.license) := by
  rw [project_read a ctx h h1 h2 h3 h4 h5]
  intro e
  simp [answered] at e
  exact hl e

set_option maxRecDepth 100000 in
/-- C112 is violated: with a quote in the description the file cannot be read, a backslash changes the description, and the author
can add another one. -/
theorem new_project_quotes_violated :
    (∃ ctx, setup { Example.mine with description := t!"a \"good\" tool" } = some ctx ∧
      loads ((jinja ctx).body pyprojectTmpl) = none) ∧
    (∃ ctx, setup { Example.mine with description := t!"reads C:\\new" } = some ctx ∧
      loads ((jinja ctx).body pyprojectTmpl) = some (answered { Example.mine with description := t!"reads C:\new" } [])) ∧
    ∃ ctx es, setup { Example.mine with author := t!"x\"}, {name=\"y" } = some ctx ∧
      loads ((jinja ctx).body pyprojectTmpl) = some es ∧
      ∃ pr, Dict.get es t!"project" = some (.table pr) ∧
        Dict.get pr t!"authors" = some (.list [.table [(t!"name", .str t!"x")], .table [(t!"name", .str t!"y")]]) := by
  refine ⟨⟨_, rfl, ?_⟩, ⟨_, rfl, ?_⟩, ⟨_, _, rfl, rfl, _, rfl, rfl⟩⟩
  · rfl
  · rfl

end NewProject
end Pkm
