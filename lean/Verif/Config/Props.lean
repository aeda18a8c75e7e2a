import Verif.Config.Lemmas
import Verif.Config.Classes
import Verif.VersionText.Props
set_option linter.unusedVariables false
set_option linter.unusedSimpArgs false
/-
Property C47: what a configuration class writes for an object, it reads back as the same object.
-/
namespace Pkm
namespace Config
open Spec

variable {V : Type}

/-- C47: an object of a configuration class is saved, and loading what was saved gives the same object. Proved for the
objects whose values belong to the types of their attributes (`HasTy`), of classes whose keys name different places
(`PlacesApart`). The excluded cases fail (below). -/
theorem config_round_trip_partial (post : List (Text × Val V) → Except Err (List (Text × Val V))) (fs : Fields V)
    (v : Val V) (h : HasTy (.complex post fs) v) :
    ∃ d, save (.complex post fs) v = .ok (.table d) ∧ load (.complex post fs) (some d) = .ok v := by
  rw [HasTy] at h
  obtain ⟨vals, rfl, hn, hnd, hap, hpost, hf⟩ := h
  exact complex_back post fs vals hn hnd hap hpost (backFields fs vals hf)

/-- C47: the same for a value of any type of attribute: lists, dictionaries, objects within objects. -/
theorem value_round_trip_partial (t : Ty V) (v : Val V) (h : HasTy t v) :
    ∃ r, unparse t v = .ok r ∧ parse t r = .ok v := by
  obtain ⟨r, h1, _, h2⟩ := back t v h
  exact ⟨r, h1, h2⟩

/-- Versions belong to the type of versions: C05 gives what C47 asks of their codec. -/
theorem version_belongs (env : UrlEnv) (v : SV) (h : Printable v) : HasTy (.leaf (versionCodec env)) (.ext (.std v)) := by
  rw [HasTy]
  refine ⟨by simp, .str v.show, rfl, by simp, ?_⟩
  simp only [versionCodec, textCodec]
  rw [version_text_round_trip env v h]

/-- Strings, numbers, truth values and raw data belong to their types. -/
theorem raw_belongs (r : Raw) (h : r ≠ .null) : HasTy (.leaf (idCodec : Codec V)) (.raw r) := by
  rw [HasTy]
  exact ⟨by simp, r, rfl, h, rfl⟩

/-- Members of an enumeration with different names belong to its type. -/
theorem enum_belongs (members : List (Text × V)) (nameOf : V → Text) (h : ∀ p ∈ members, nameOf p.2 = p.1)
    (hd : (members.map (·.1)).Nodup) (n : Text) (v : V) (hv : (n, v) ∈ members) :
    HasTy (.leaf (enumCodec members nameOf)) (.ext v) := by
  rw [HasTy]
  refine ⟨by simp, .str n, ?_, by simp, ?_⟩
  · simp [enumCodec, textCodec, h (n, v) hv]
  · simp [enumCodec, textCodec, Dict.mem_get members n v hd hv]

/-- Paths with a text that gives them back and is not empty belong to their type. -/
theorem path_belongs (make : Text → Option V) (show_ : V → Text) (v : V) (h : make (show_ v) = some v)
    (hne : show_ v ≠ []) : HasTy (.leaf (stringable make show_)) (.ext v) := by
  rw [HasTy]
  refine ⟨by simp, .str (show_ v), rfl, by simp, ?_⟩
  cases hs : show_ v with
  | nil => exact absurd hs hne
  | cons c s => rw [hs] at h; simp [stringable, h]

/-- A class with dotted keys for the example: a version at `tool.version`, a list of strings at `tool.names` and an
attribute without value. -/
def exampleClass (env : UrlEnv) : Ty Ver :=
  .complex .ok
    (.cons { name := ['v'], key := [['t'], ['v']] } (.leaf (versionCodec env))
    (.cons { name := ['n'], key := [['t'], ['n']], default := .list [] } (.list (.leaf idCodec))
    (.cons { name := ['o'], key := [['o']] } (.leaf idCodec) .nil)))

/-- An object of the class. -/
def exampleObject : Val Ver :=
  .obj [(['v'], .ext (.std { release := [1, 2] })), (['n'], .list [.raw (.str ['a']), .raw (.str [])]), (['o'], .none)]

theorem example_belongs (env : UrlEnv) : HasTy (exampleClass env) exampleObject := by
  rw [exampleClass, HasTy]
  refine ⟨_, rfl, rfl, by simp [Fields.names], Or.inl ⟨rfl, by simp [Fields.keys], ?_⟩, rfl, ?_⟩
  · simp [Fields.keys, Unrelated]
  · simp only [FieldsOk]
    refine ⟨by simp, fun _ => Or.inr (version_belongs env _ ?_), by simp, fun _ => Or.inr ?_, by simp,
      fun _ => Or.inl ⟨rfl, by simp⟩, trivial⟩
    · exact ⟨by simp, by simp, by simp⟩
    · rw [HasTy]
      refine ⟨_, rfl, ?_⟩
      intro x hx
      simp at hx
      rcases hx with rfl | rfl
      · exact raw_belongs _ (by simp)
      · exact raw_belongs _ (by simp)

example (env : UrlEnv) : ∃ d, save (exampleClass env) exampleObject = .ok (.table d) ∧
    load (exampleClass env) (some d) = .ok exampleObject :=
  config_round_trip_partial _ _ _ (example_belongs env)

/-- A repository with arguments (a class with a field for what is left) meets the hypotheses. -/
example : HasTy repositoryInstance
    (.obj [("type".toList, .raw (.str "pypi".toList)), ("bind_only".toList, .raw (.bool true)),
           ("args".toList, .raw (.table [("url".toList, .str ['u'])]))]) := by
  rw [repositoryInstance, HasTy]
  refine ⟨_, rfl, rfl, by decide, Or.inr ⟨by decide, ["type".toList, "bind-only".toList], by decide, by decide⟩, rfl, ?_⟩
  simp only [FieldsOk]
  exact ⟨by simp, fun _ => Or.inr (raw_belongs _ (by simp)), by simp, fun _ => Or.inr (raw_belongs _ (by simp)),
    fun _ => ⟨_, rfl⟩, by simp, trivial⟩

/-! ### Where the values are written -/

/-- C47: in what is saved for an object, each attribute that has a value is found, as its codec writes it, at the key
of the attribute, dots leading into tables; nothing is found at the key of an attribute without value; and whatever is
found lies at, below or on the way to the key of some attribute. -/
theorem config_written_at_keys (post : List (Text × Val V) → Except Err (List (Text × Val V))) (fs : Fields V)
    (vals : List (Text × Val V)) (h : HasTy (.complex post fs) (.obj vals)) (hl : fs.leftovers = 0)
    (hk : ∀ k ∈ fs.keys, k ≠ []) (hpw : fs.keys.Pairwise Unrelated) :
    ∃ d, save (.complex post fs) (.obj vals) = .ok (.table d) ∧ Stored fs vals d ∧ Only fs.keys d := by
  rw [HasTy] at h
  obtain ⟨vals', e, hn, hnd, hap, hpost, hf⟩ := h
  cases e
  obtain ⟨d, h1, h2, h3, _⟩ := unparse_dotted fs vals [] [] (backFields fs vals hf) hl hk hpw (by simp)
    (by intro p hp r hr; cases p with
        | nil => exact absurd rfl hp
        | cons a p => simp [look, Dict.get] at hr)
  exact ⟨d, by rw [save, unparse]; simp [h1], h3, by simpa using h2⟩

/-! ### Data that the class does not know -/

theorem get_update (l : Table) : ∀ (d : Table) (k : Text), Dict.Wf l →
    Dict.get (update d l) k = (Dict.get l k).or (Dict.get d k) := by
  induction l with
  | nil => intro d k _; simp [update, Dict.get]
  | cons e l ih =>
    intro d k hw
    obtain ⟨a, v⟩ := e
    simp [Dict.Wf, Dict.keys] at hw
    rw [update, ih _ _ hw.2, Dict.get_put]
    by_cases e : a = k
    · subst e
      have : Dict.get l a = none := (Dict.get_none_iff l a).2 (by simpa [Dict.keys] using hw.1)
      simp [Dict.get, this]
    · simp [Dict.get, e]

theorem leftoverNames_sub (fs : Fields V) : ∀ n ∈ fs.leftoverNames, n ∈ fs.names := by
  match fs with
  | .nil => simp [Fields.leftoverNames]
  | .cons f t rest =>
    intro n hn
    cases hlf : f.leftover with
    | true =>
      simp only [Fields.leftoverNames, hlf, if_true, List.mem_cons] at hn
      rcases hn with rfl | hn
      · simp [Fields.names]
      · simp [Fields.names, leftoverNames_sub rest n hn]
    | false =>
      simp only [Fields.leftoverNames, hlf, Bool.false_eq_true, if_false] at hn
      simp [Fields.names, leftoverNames_sub rest n hn]

theorem unparse_rest (fs : Fields V) (hks : ∀ k ∈ fs.keys, ∃ a, k = [a]) (vals : List (Text × Val V)) (l : Table)
    (hl : ∀ n ∈ fs.leftoverNames, attr vals n = .raw (.table l)) (hw : Dict.Wf l) : ∀ (d d' : Table),
    unparseFields fs vals d = .ok d' → ∀ k, [k] ∉ fs.keys →
    (fs.leftoverNames = [] → Dict.get d' k = Dict.get d k) ∧
    (fs.leftoverNames ≠ [] → Dict.get d' k = (Dict.get l k).or (Dict.get d k)) := by
  match fs with
  | .nil =>
    intro d d' h k hk
    simp [unparseFields] at h
    simp [h, Fields.leftoverNames]
  | .cons f t rest =>
    intro d d' h k hk
    cases hlf : f.leftover with
    | true =>
      simp only [Fields.leftoverNames, Fields.keys, hlf, if_true] at hl hk hks ⊢
      have hv := hl f.name (by simp)
      have ih := unparse_rest rest hks vals l (fun n hn => hl n (by simp [hn])) hw
      rw [unparseFields] at h
      simp only [hv, hlf, if_true] at h
      obtain ⟨i1, i2⟩ := ih _ _ h k hk
      refine ⟨by simp, fun _ => ?_⟩
      by_cases e : rest.leftoverNames = []
      · rw [i1 e, get_update l d k hw]
      · rw [i2 e, get_update l d k hw]
        cases Dict.get l k <;> simp
    | false =>
      simp only [Fields.leftoverNames, Fields.keys, hlf, Bool.false_eq_true, if_false] at hl hk hks ⊢
      obtain ⟨a, ha⟩ := hks f.key (by simp)
      have ih := unparse_rest rest (fun k hk => hks k (by simp [hk])) vals l hl hw
      simp only [List.mem_cons, not_or, ha] at hk
      have hak : ¬ a = k := by rintro rfl; exact hk.1 rfl
      rw [unparseFields] at h
      simp only [hlf, Bool.false_eq_true, if_false, ha, shoveKey] at h
      split at h
      · exact ih _ _ h k hk.2
      · split at h
        · simp at h
        · have := ih _ _ h k hk.2
          simpa [Dict.get_put, hak] using this

theorem parse_rest (fs : Fields V) (hks : ∀ k ∈ fs.keys, ∃ a, k = [a]) : ∀ (d d' : Table) (vs : List (Text × Val V)),
    parseFields fs d = .ok (vs, d') → fs.names.Nodup →
      vs.map (·.1) = fs.names ∧ (∀ k, [k] ∉ fs.keys → Dict.get d' k = Dict.get d k) ∧ (Dict.Wf d → Dict.Wf d') ∧
      ∀ n ∈ fs.leftoverNames, attr vs n = .raw (.table d') := by
  match fs with
  | .nil =>
    intro d d' vs h _
    simp [parseFields] at h
    obtain ⟨rfl, rfl⟩ := h
    simp [Fields.names, Fields.leftoverNames]
  | .cons f t rest =>
    intro d d' vs h hnd
    simp only [Fields.names, List.nodup_cons] at hnd
    cases hlf : f.leftover with
    | true =>
      simp only [Fields.keys, hlf, if_true] at hks ⊢
      rw [parseFields] at h
      simp only [hlf, if_true] at h
      cases hp : parseFields rest d with
      | error e => simp [hp, consLeftover] at h
      | ok x =>
        obtain ⟨vs', d''⟩ := x
        simp [hp, consLeftover] at h
        obtain ⟨rfl, rfl⟩ := h
        obtain ⟨h1, h2, h3, h4⟩ := parse_rest rest hks d d'' vs' hp hnd.2
        refine ⟨by simp [Fields.names, h1], h2, h3, ?_⟩
        intro n hn
        simp only [Fields.leftoverNames, hlf, if_true, List.mem_cons] at hn
        rcases hn with rfl | hn
        · simp [attr, Dict.get]
        · have : ¬ f.name = n := by rintro rfl; exact hnd.1 (leftoverNames_sub rest _ hn)
          have h5 := h4 n hn
          simpa [attr, Dict.get, this] using h5
    | false =>
      simp only [Fields.keys, hlf, Bool.false_eq_true, if_false] at hks ⊢
      obtain ⟨a, ha⟩ := hks f.key (by simp)
      have key : ∀ v, consField f.name v (parseFields rest (Dict.del d a)) = .ok (vs, d') →
          vs.map (·.1) = f.name :: rest.names ∧ (∀ k, [k] ∉ f.key :: rest.keys → Dict.get d' k = Dict.get d k) ∧
          (Dict.Wf d → Dict.Wf d') ∧ ∀ n ∈ rest.leftoverNames, attr vs n = .raw (.table d') := by
        intro v h
        cases hp : parseFields rest (Dict.del d a) with
        | error e => simp [hp, consField] at h
        | ok x =>
          obtain ⟨vs', d''⟩ := x
          simp [hp, consField] at h
          obtain ⟨rfl, rfl⟩ := h
          obtain ⟨h1, h2, h3, h4⟩ := parse_rest rest (fun k hk => hks k (by simp [hk])) _ d'' vs' hp hnd.2
          refine ⟨by simp [h1], ?_, fun hw => h3 (Dict.wf_del d a hw), ?_⟩
          · intro k hk
            simp only [List.mem_cons, not_or, ha] at hk
            rw [h2 k hk.2, Dict.get_del]
            have : ¬ a = k := by rintro rfl; exact hk.1 rfl
            simp [this]
          · intro n hn
            have : ¬ f.name = n := by rintro rfl; exact hnd.1 (leftoverNames_sub rest _ hn)
            have h5 := h4 n hn
            simpa [attr, Dict.get, this] using h5
      rw [parseFields] at h
      simp only [hlf, Bool.false_eq_true, if_false, ha, popKey] at h
      simp only [Fields.names, Fields.leftoverNames, hlf, Bool.false_eq_true, if_false]
      split at h
      · simp at h
      · rename_i d1 e
        simp at e
        obtain ⟨_, rfl⟩ := e
        split at h
        · exact key _ h
        · simp at h
      · rename_i r d1 _ e
        simp at e
        obtain ⟨_, rfl⟩ := e
        split at h
        · exact key _ h
        · simp at h

/-- C47: data of a file that the class has no attribute for are kept: when the file is loaded, the attributes changed at
will apart from the one that takes what is left, and the object saved again, each key that no attribute has still has
its value. Proved for classes whose keys have no dots and that have a field for what is left. -/
theorem unknown_data_kept_partial (fs : Fields V) (hks : ∀ k ∈ fs.keys, ∃ a, k = [a]) (hn : fs.names.Nodup)
    (hl : fs.leftoverNames ≠ []) (d : Table) (hd : Dict.Wf d) (vals : List (Text × Val V))
    (hload : load (.complex .ok fs) (some d) = .ok (.obj vals)) (vals' : List (Text × Val V))
    (hsame : ∀ n ∈ fs.leftoverNames, attr vals' n = attr vals n) (r : Raw)
    (hsave : save (.complex .ok fs) (.obj vals') = .ok r) :
    ∃ d', r = .table d' ∧ ∀ k, [k] ∉ fs.keys → Dict.get d' k = Dict.get d k := by
  simp only [load, parse, Option.getD_some] at hload
  cases hp : parseFields fs d with
  | error e => simp [hp, wrapObj] at hload
  | ok x =>
    obtain ⟨vs, d1⟩ := x
    simp [hp, wrapObj] at hload
    subst hload
    obtain ⟨_, h2, h3, h4⟩ := parse_rest fs hks d d1 vs hp hn
    simp only [save, unparse] at hsave
    cases hu : unparseFields fs vals' [] with
    | error e => simp [hu] at hsave
    | ok d' =>
      simp [hu] at hsave
      refine ⟨d', hsave.symm, ?_⟩
      intro k hk
      have := (unparse_rest fs hks vals' d1 (fun n hn => by rw [hsame n hn, h4 n hn]) (h3 hd) [] d' hu k hk).2 hl
      rw [this, h2 k hk]
      simp [Dict.get]

example : ∃ vals r, load repositoryInstance (some [("type".toList, .str ['p']), ("url".toList, .str ['u'])]) = .ok (.obj vals) ∧
    save repositoryInstance (.obj vals) = .ok (.table r) ∧ Dict.get r "url".toList = some (.str ['u']) :=
  ⟨_, _, rfl, rfl, rfl⟩

/-! ### Attributes that are not in the file -/

/-- C47: an attribute without value in the file gets its default, a required one stops the loading with the exception
that names it. -/
theorem absent_attribute (f : Field V) (t : Ty V) (rest : Fields V) (d : Table) (hlf : f.leftover = false)
    (hk : f.key ≠ []) (ho : ∀ p, p ≠ [] → p <+: f.key → p ≠ f.key → ∀ r, look p (.table d) = some r → ∃ s, r = .table s)
    (hl : look f.key (.table d) = none) :
    (f.required = true → parseFields (.cons f t rest) d = .error (.missing f.name)) ∧
    (f.required = false → ∀ vs d', parseFields (.cons f t rest) d = .ok (vs, d') →
      attr vs f.name = f.default) := by
  obtain ⟨d1, e1, _, _⟩ := pop_spec f.key hk d ho
  rw [hl] at e1
  constructor
  · intro hr
    rw [parseFields]
    simp [hlf, e1, absent, hr]
  · intro hr vs d' h
    rw [parseFields] at h
    simp [hlf, e1, absent, hr] at h
    cases hp : parseFields rest d1 with
    | error e => simp [hp, consField] at h
    | ok x =>
      obtain ⟨vs', d2⟩ := x
      simp [hp, consField] at h
      obtain ⟨rfl, _⟩ := h
      simp [attr, Dict.get]

example : parseFields (V := Ver) (.cons { name := ['x'], key := [['t'], ['x']], required := true } (.leaf idCodec) .nil)
    [(['t'], .table [(['y'], .int 1)])] = .error (.missing ['x']) := rfl

/-! ### What fails -/

/-- A file with the application type of a project's distribution. -/
def distributionFile : Table :=
  [("project".toList, .table [("name".toList, .str ['p']), ("version".toList, .str "1.0".toList)]),
   ("tool".toList, .table [("pkm".toList, .table [("distribution".toList, .table [("type".toList, .str "cnt-app".toList)])])])]

/-- C47 fails for the class of `pyproject.toml`: loading the file of a project and saving it, as bumping the version does,
loses `[tool.pkm.distribution]` (and likewise `tool.pkm.project` and `tool.pkm.application`): taking a value out leaves
its emptied tables to the field for what is left, and these are written over the tables with the value. -/
theorem pyproject_loses_tool_tables_violated (env : UrlEnv) : ∃ v d,
    load (pyProject env) (some distributionFile) = .ok v ∧ save (pyProject env) v = .ok (.table d) ∧
    look ["tool".toList, "pkm".toList, "distribution".toList, "type".toList] (.table distributionFile) =
      some (.str "cnt-app".toList) ∧
    look ["tool".toList, "pkm".toList, "distribution".toList] (.table d) = none :=
  ⟨_, _, rfl, rfl, rfl, rfl⟩

theorem unparse_fails (f : Field V) (t : Ty V) (rest : Fields V) (vals : List (Text × Val V))
    (h : ∀ d, ∃ e, unparseFields rest vals d = .error e) (d : Table) :
    ∃ e, unparseFields (.cons f t rest) vals d = .error e := by
  rw [unparseFields]
  split
  · exact h d
  · split
    · split
      · exact h _
      · exact ⟨_, rfl⟩
    · split
      · exact ⟨_, rfl⟩
      · split
        · exact h _
        · exact ⟨_, rfl⟩

/-- C47 fails for the class of the repositories: no object that was loaded, or whose bindings were ever set, can be saved,
since `Mapping[..]` has no codec. -/
theorem repositories_never_saved_violated (vals : List (Text × Val Ver))
    (h : attr vals "package_bindings".toList ≠ .none) (r : Raw) : save repositories (.obj vals) ≠ .ok r := by
  intro hs
  rw [save, repositories, unparse] at hs
  have hlast : ∀ d, unparseFields (.cons { name := "package_bindings".toList, key := ["package-bindings".toList], default := .dict [] } .unknown
      .nil) vals d = .error Err.badValue := by
    intro d
    rw [unparseFields]
    split
    · rename_i e; exact absurd e h
    · simp [unparse]
  obtain ⟨e, he⟩ := unparse_fails _ _ _ vals (unparse_fails _ _ _ vals (fun d => ⟨_, hlast d⟩)) []
  rw [he] at hs
  simp at hs

/-- Every object that is loaded from a file meets the hypothesis. -/
example : ∃ vals, load repositories (some []) = .ok (.obj vals) ∧ attr vals "package_bindings".toList ≠ .none :=
  ⟨_, rfl, by simp [attr, Dict.get]⟩

/-- C47 fails for `Optional[..]` attributes: a file that sets the group of a project cannot be loaded. -/
theorem optional_attribute_not_loaded_violated :
    load pkmProjectConfig (some [("group".toList, .str "..".toList)]) = .error (.noCodec "group".toList) := rfl

/-- C47: an attribute set to `None` is not written; where the class has another default, it is loaded as that. -/
theorem none_becomes_default_violated : ∃ t : Ty Ver, ∃ v d w, save t v = .ok (.table d) ∧
    load t (some d) = .ok w ∧ w ≠ v :=
  ⟨.complex .ok (.cons { name := ['n'], key := [['n']], default := .raw (.int 1) } (.leaf idCodec) .nil),
    .obj [(['n'], .none)], [], .obj [(['n'], .raw (.int 1))], rfl, rfl, by simp⟩

/-- C47: a list of strings that the file gives as one string is taken apart into characters. -/
theorem string_for_list_violated : parse (.list (.leaf (idCodec : Codec Ver))) (.str ['a', 'b']) =
    .ok (.list [.raw (.str ['a']), .raw (.str ['b'])]) := rfl

/-! ### The names of authors -/

theorem escape_length (s : Text) : s.length ≤ (escapeName s).length := by
  induction s with
  | nil => simp [escapeName]
  | cons c s ih =>
    simp only [escapeName]
    split <;> simp <;> omega

theorem escape_special (s : Text) (h : s.any special = true) : (escapeName s).any special = true := by
  induction s with
  | nil => simp at h
  | cons c s ih =>
    simp only [escapeName]
    split
    · simp [special]
    · simp only [List.any_cons, Bool.or_eq_true] at h ⊢
      exact h.imp_right ih

theorem escape_plain (s : Text) (h : s.any special = false) : escapeName s = s := by
  induction s with
  | nil => rfl
  | cons c s ih =>
    simp only [List.any_cons, Bool.or_eq_false_iff] at h
    have h1 : ¬ (c = '\\' ∨ c = '"') := by
      rintro (rfl | rfl) <;> simp [special] at h
    simp [escapeName, h1, ih h.2]

/-- C47: the name of an author stays as it is exactly when no character of it needs quotes (`.`, `,`, `@`, ...). -/
theorem contact_name_kept (s : Text) : quoteName s = s ↔ s.any special = false := by
  constructor
  · intro h
    cases hs : s.any special with
    | false => rfl
    | true =>
      have := congrArg List.length h
      have := escape_length s
      simp [quoteName, hs] at *
      omega
  · intro h
    simp [quoteName, h, escape_plain s h]

example : quoteName "Jo Doe".toList = "Jo Doe".toList ∧ quoteName "J. Doe".toList = "\"J. Doe\"".toList := by decide

/-- The object of an author. -/
def contact (s : Text) : Val Ver := .obj [("name".toList, .raw (.str s)), ("email".toList, .none)]

/-- Saves an author and loads them again, the given number of times. -/
def saveLoad : Nat → Val Ver → Except Err (Val Ver)
  | 0, v => .ok v
  | n + 1, v =>
    match save contactInfo v with
    | .ok (.table d) =>
      match load contactInfo (some d) with
      | .ok w => saveLoad n w
      | .error e => .error e
    | .ok _ => .error .badValue
    | .error e => .error e

theorem saveLoad_step (n : Nat) (s : Text) : saveLoad (n + 1) (contact s) = saveLoad n (contact (quoteName s)) := rfl

/-- C47 fails for authors whose names need quotes: each saving and loading of the file makes the name longer, without
end. -/
theorem contact_name_grows_violated (n : Nat) : ∀ s : Text, s.any special = true →
    ∃ s', saveLoad n (contact s) = .ok (contact s') ∧ s.length + 2 * n ≤ s'.length := by
  induction n with
  | zero => intro s _; exact ⟨s, rfl, by omega⟩
  | succ n ih =>
    intro s hs
    have hq : (quoteName s).any special = true := by simp [quoteName, hs, special]
    obtain ⟨s', h1, h2⟩ := ih (quoteName s) hq
    refine ⟨s', by rw [saveLoad_step]; exact h1, ?_⟩
    have := escape_length s
    have : (quoteName s).length = (escapeName s).length + 2 := by simp [quoteName, hs]
    omega

example : ("J. Doe".toList).any special = true := by decide

/-- C47: an author without a name cannot be loaded. -/
theorem contact_without_name_violated :
    load contactInfo (some [("email".toList, .str "a@b".toList)]) = .error .badValue := rfl

end Config
end Pkm
