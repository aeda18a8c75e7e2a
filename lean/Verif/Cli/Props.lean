import Verif.Cli.Lemmas
set_option linter.unusedVariables false
set_option linter.unusedSimpArgs false
/-
C48. What is typed on the command line is what the command is run with.
-/
namespace Pkm
namespace Cli

variable {V : Type}

/-! ### Example commands -/

namespace Example

/-- Any text. -/
def any (t : Text) : Option Text := some t

def verbose : OptDef Text :=
  { names := ["-v".toList, "--verbose".toList], name := "verbose".toList, default := some (.val []), reader := .flag }

def quiet : OptDef Text :=
  { names := ["-q".toList, "--quiet".toList], name := "quiet".toList, default := some (.val []), reader := .flag }

def repo : OptDef Text :=
  { names := ["-r".toList, "--repo".toList], name := "repo".toList, default := some (.many []), repeatable := true
    reader := .text any }

def site : OptDef Text :=
  { names := ["-s".toList, "--site".toList], name := "site".toList, default := none, reader := .text any }

def up : OptDef Text :=
  { names := ["--up".toList], name := "up".toList, default := some (.val []), mutex := some "how".toList
    reader := .flag }

def down : OptDef Text :=
  { names := ["--down".toList], name := "down".toList, default := some (.val []), mutex := some "how".toList
    reader := .flag }

def target : PosDef Text := { name := "target".toList, conv := any }

def packages : PosDef Text := { name := "packages".toList, extra := none, conv := any }

/-- `install [--site S] [--up | --down] TARGET PACKAGES...` -/
def install : Node Text :=
  .mk (some { options := [site, up, down], positional := [target, packages] }) []

/-- `pkm [-v] [-q] [-r REPO]... install ...` -/
def root : Node Text := .mk (some { options := [verbose, quiet, repo], positional := [] }) [("install".toList, install)]

/-- The items of `pkm -vq --repo a -r=b`. -/
def rootItems : List (Item Text) :=
  [.short [(verbose, 'v'), (quiet, 'q')], .long repo (.sep "--repo".toList "a".toList) (.val "a".toList),
   .shortValue [] repo 'r' "b".toList true "b".toList]

/-- The items of `install --site=home here x --y`. -/
def installItems : List (Item Text) :=
  [.long site (.eq "--site".toList "home".toList) (.val "home".toList), .pos [("here".toList, "here".toList)],
   .pos [("x".toList, "x".toList), ("--y".toList, "--y".toList)]]

/-- The same without the required option. -/
def incompleteItems : List (Item Text) :=
  [.pos [("here".toList, "here".toList)], .pos [("x".toList, "x".toList)]]

theorem repo_ne : verbose ≠ repo ∧ quiet ≠ repo ∧ verbose ≠ quiet := by
  refine ⟨fun h => ?_, fun h => ?_, fun h => ?_⟩ <;>
  · have := congrArg OptDef.name h
    revert this
    decide

theorem rootItems_ok (b : Bool) : ItemsOk [] root 0 rootItems b := by
  simp only [rootItems, ItemsOk]
  refine ⟨?_, ?_, ⟨?_, ?_, ⟨_, rfl⟩, rfl, ⟨_, rfl, rfl⟩, ?_, ?_, ⟨?_, ?_, ?_⟩, rfl, ⟨_, rfl, rfl⟩, ?_, trivial⟩⟩
  · intro p hp
    simp at hp
    rcases hp with rfl | rfl
    · exact ⟨⟨by simp [root, Node.options, Node.cmd], by decide,
        by intro o ho; simp [root, Node.options, Node.cmd] at ho; rcases ho with rfl | rfl | rfl | rfl <;>
           first | (intro _; rfl) | (intro h; exact absurd h (by decide))⟩, rfl, rfl, rfl⟩
    · exact ⟨⟨by simp [root, Node.options, Node.cmd], by decide,
        by intro o ho; simp [root, Node.options, Node.cmd] at ho; rcases ho with rfl | rfl | rfl | rfl <;>
           first | (intro _; rfl) | (intro h; exact absurd h (by decide))⟩, rfl, rfl, rfl⟩
  · exact ⟨by decide, by decide, by decide⟩
  · exact ⟨by simp [root, Node.options, Node.cmd], by decide,
        by intro o ho; simp [root, Node.options, Node.cmd] at ho; rcases ho with rfl | rfl | rfl | rfl <;>
           first | (intro _; rfl) | (intro h; exact absurd h (by decide))⟩
  · exact ⟨by decide, by intro c hc; simp [Use.name] at hc; subst hc; decide, by intro c hc; simp [Use.name] at hc; subst hc; decide⟩
  · intro p hp; simp at hp
  · exact ⟨by decide, by decide, by decide⟩
  · simp [root, Node.options, Node.cmd]
  · decide
  · intro o ho; simp [root, Node.options, Node.cmd] at ho; rcases ho with rfl | rfl | rfl | rfl <;>
           first | (intro _; rfl) | (intro h; exact absurd h (by decide))
  · intro _; exact ⟨by decide, by intro c hc; simp at hc; subst hc; decide, by intro c hc; simp at hc; subst hc; decide⟩

theorem installItems_ok : ItemsOk [] install 0 installItems true := by
  simp only [installItems, ItemsOk]
  refine ⟨⟨?_, ?_, ?_⟩, ⟨?_, ?_, ?_⟩, ⟨_, rfl⟩, rfl, ⟨by decide, ?_, _, rfl, rfl⟩, ⟨target, _, _, [], rfl, rfl, rfl, ?_, rfl, ?_, rfl⟩,
    ⟨packages, "x".toList, "x".toList, [("--y".toList, "--y".toList)], rfl, rfl, rfl, ?_, rfl, ?_, ?_⟩, trivial⟩
  · simp [install, Node.options, Node.cmd]
  · decide
  · intro o ho; simp [install, Node.options, Node.cmd] at ho; rcases ho with rfl | rfl | rfl | rfl <;>
           first | (intro _; rfl) | (intro h; exact absurd h (by decide))
  · decide
  · intro c hc; simp [Use.name] at hc; subst hc; decide
  · intro c hc; simp [Use.name] at hc; subst hc; decide
  · exact ⟨by intro c hc; simp at hc; subst hc; decide, by intro c hc; simp at hc; subst hc; decide⟩
  · exact ⟨by decide, by decide, by decide⟩
  · intro q hq; simp at hq; subst hq; rfl
  · exact ⟨by decide, by decide, by decide⟩
  · intro q hq; simp at hq; rcases hq with rfl | rfl <;> rfl
  · first | exact ⟨trivial, rfl⟩ | exact ⟨trivial, trivial⟩ | exact trivial

theorem incompleteItems_ok : ItemsOk [] install 0 incompleteItems true := by
  simp only [incompleteItems, ItemsOk]
  refine ⟨⟨target, _, _, [], rfl, rfl, rfl, ?_, rfl, ?_, rfl⟩, ⟨packages, "x".toList, "x".toList, [], rfl, rfl, rfl, ?_, rfl, ?_, ?_⟩, trivial⟩
  · exact ⟨by decide, by decide, by decide⟩
  · intro q hq; simp at hq; subst hq; rfl
  · exact ⟨by decide, by decide, by decide⟩
  · intro q hq; simp at hq; subst hq; rfl
  · first | exact ⟨trivial, rfl⟩ | exact ⟨trivial, trivial⟩ | exact trivial

theorem line_ok' : LineOk [] root rootItems [("install".toList, installItems)] :=
  ⟨by unfold NamesApart; decide, rootItems_ok false, ⟨by decide, by decide, by decide⟩, install, rfl, by unfold NamesApart; decide, installItems_ok, by simp [install, Node.cmd]⟩

theorem line_incomplete : LineOk [] root rootItems [("install".toList, incompleteItems)] :=
  ⟨by unfold NamesApart; decide, rootItems_ok false, ⟨by decide, by decide, by decide⟩, install, rfl, by unfold NamesApart; decide, incompleteItems_ok, by simp [install, Node.cmd]⟩

theorem rootItems_complete : Complete [] root rootItems := by
  refine ⟨?_, ?_, ?_⟩
  · intro o ho
    simp [root, Node.options, Node.cmd] at ho
    rcases ho with rfl | rfl | rfl | rfl <;> intro h <;> simp [helpOption, verbose, quiet, repo] at h
  · intro k p hp
    simp [root, Node.positional, Node.cmd] at hp
  · simp [root, Node.options, Node.cmd, List.pairwise_cons, verbose, quiet, repo]

theorem line_complete : LineComplete [] root rootItems [("install".toList, installItems)] := by
  refine ⟨rootItems_complete, ?_⟩
  intro sub hsub
  cases hsub
  refine ⟨?_, ?_, ?_⟩
  · intro o ho
    simp [install, Node.options, Node.cmd] at ho
    rcases ho with rfl | rfl | rfl | rfl
    · intro h; simp [helpOption] at h
    · intro _ h
      have : (given installItems site).length = 1 := by rfl
      rw [h] at this
      simp at this
    · intro h; simp [up] at h
    · intro h; simp [down] at h
  · intro k p hp _
    have := (List.getElem?_eq_some_iff.1 hp).1
    exact this
  · have h0 : (given installItems up).length = 0 := by rfl
    have h1 := List.eq_nil_of_length_eq_zero h0
    have h2 : (given installItems down).length = 0 := by rfl
    have h3 := List.eq_nil_of_length_eq_zero h2
    simp [install, Node.options, Node.cmd, List.pairwise_cons, h1, h3]

theorem line_not_complete : ¬ LineComplete [] root rootItems [("install".toList, incompleteItems)] := by
  intro h
  refine (h.2 install rfl).1 site (by simp [install, Node.options, Node.cmd]) rfl ?_
  exact List.eq_nil_of_length_eq_zero (by rfl)

end Example

/-! ### The statements -/

/-- C48. A command line made of options in any of their spellings, positional arguments and sub-commands, with nothing
required missing, is read as typed: each command of the line comes out in order, and each of its options and positional
arguments has the value given to it (all of them in order, for a repeatable option), or else its default. Missing for the
full claim: the cases below in which the code does not read what is typed; fields inside a line (their reading is the
subject of `fields_are_read_as_typed`). -/
theorem line_is_read_as_typed_partial (off : V) (root : Node V) (items : List (Item V)) (subs : List (Text × List (Item V)))
    (h : LineOk off root items subs) (hc : LineComplete off root items subs) :
    ∃ res, parse off root (renderLine items subs) = .ok res ∧ LineBound off root [] items subs res := by
  obtain ⟨res, h1, h2⟩ := line_ok off subs root items [] [] h hc
  exact ⟨res, by rw [parse]; simpa using h1, h2⟩

/-- `pkm -vq --repo a -r=b install --site=home here x --y` -/
example : ∃ res, parse [] Example.root (renderLine Example.rootItems [("install".toList, Example.installItems)]) = .ok res ∧
    LineBound [] Example.root [] Example.rootItems [("install".toList, Example.installItems)] res :=
  line_is_read_as_typed_partial _ _ _ _ Example.line_ok' Example.line_complete

/-- C48. If something required is missing, or two options that exclude each other are given, at any command of the
line, the line is refused. -/
theorem incomplete_line_is_refused (off : V) (root : Node V) (items : List (Item V)) (subs : List (Text × List (Item V)))
    (h : LineOk off root items subs) (hc : ¬ LineComplete off root items subs) :
    ∃ e, parse off root (renderLine items subs) = .error e := by
  cases hr : parse off root (renderLine items subs) with
  | error e => exact ⟨e, rfl⟩
  | ok res => exact absurd (line_inv off subs root items [] [] res h hr) hc

/-- `pkm -vq --repo a -r=b install here x`, without the required `--site` -/
example : ∃ e, parse [] Example.root (renderLine Example.rootItems [("install".toList, Example.incompleteItems)]) = .error e :=
  incomplete_line_is_refused _ _ _ _ Example.line_incomplete Example.line_not_complete

/-- C48. After any commands and items that fit, an option that the command does not have is refused. -/
theorem unknown_option_is_refused (off : V) (root m : Node V) (items : List (Item V))
    (subs : List (Text × List (Item V))) (k : Nat) (h : LineOpen off root items subs m k) (u : Use)
    (hu : NameOk u.name) (hd : ∃ s, u.name = '-' :: '-' :: s)
    (hv : ∀ n v, u = .eq n v → v ≠ [] ∧ Trimmed v)
    (hno : ∀ o ∈ helpOption off :: m.options, u.name ∉ o.names) (rest : List Text) :
    ∃ e, parse off root (renderLine items subs ++ (u.render ++ rest)) = .error e := by
  rcases line_reaches off subs root items [] [] (u.render ++ rest) m k h with ⟨e, he⟩ | ⟨path, args, parents, he⟩
  · exact ⟨e, he⟩
  · obtain ⟨s, hs⟩ := hd
    have hf : findOption off m.options u.name = none := by
      unfold findOption
      have h1 : m.options.reverse.find? (fun o => decide (u.name ∈ o.names)) = none := by
        rw [List.find?_eq_none]
        intro o ho
        have := hno o (by simp at ho; simp [ho])
        simp [this]
      rw [h1]
      have := hno (helpOption off) (by simp)
      simp [this]
    have key : ∀ (a : Text) (r k2 : List Text), optionKey a r = (u.name, k2) → a.head? = some '-' →
        step off { node := m, path := path, args := args, index := k, parents := parents, buf := a :: r } a r =
          .error (.unknownOption u.name) := by
      intro a r k2 hk ha
      unfold step readOptionOrFlag
      simp only [ha, if_true, hk]
      rw [hs] at hf ⊢
      simp only [hf]
    have fin : ∀ (a : Text) (r k2 : List Text), u.render ++ rest = a :: r → optionKey a r = (u.name, k2) →
        a.head? = some '-' → ∃ e, parse off root (renderLine items subs ++ (u.render ++ rest)) = .error e := by
      intro a r k2 hb hk ha
      cases a with
      | nil => simp at ha
      | cons c a =>
        refine ⟨.unknownOption u.name, ?_⟩
        rw [parse, he, hb]
        exact loop_error off { node := m, path := path, args := args, index := k, parents := parents, buf := (c :: a) :: r }
          _ c a r rfl (key _ r k2 hk ha)
    cases u with
    | flag n =>
      simp only [Use.name] at *
      exact fin n rest _ rfl (optionKey_name n hu rest) (by rw [hs]; rfl)
    | sep n v =>
      simp only [Use.name] at *
      exact fin n (v :: rest) _ rfl (optionKey_name n hu (v :: rest)) (by rw [hs]; rfl)
    | eq n v =>
      simp only [Use.name] at *
      obtain ⟨h1, h2⟩ := hv n v rfl
      exact fin (n ++ '=' :: v) rest _ rfl (optionKey_eq n v hu h1 h2 rest) (by rw [hs]; rfl)

/-- `pkm -vq --repo a -r=b --color=red` -/
example : ∃ e, parse [] Example.root (renderLine Example.rootItems [] ++
    ((Use.eq "--color".toList "red".toList).render ++ ["install".toList])) = .error e :=
  unknown_option_is_refused [] Example.root Example.root Example.rootItems [] 0
    ⟨Example.rootItems_ok false, rfl, rfl⟩ (.eq "--color".toList "red".toList)
    ⟨by decide, by intro c hc; simp [Use.name] at hc; subst hc; decide, by intro c hc; simp [Use.name] at hc; subst hc; decide⟩
    ⟨_, rfl⟩
    (by
      intro n v h
      cases h
      exact ⟨by decide, by intro c hc; simp at hc; subst hc; decide, by intro c hc; simp at hc; subst hc; decide⟩)
    (by
      intro o ho
      simp [Example.root, Node.options, Node.cmd] at ho
      rcases ho with rfl | rfl | rfl | rfl <;> decide) _

/-- C48. After any commands and items that fit, one more argument, which is no sub-command, is refused when all the
positional arguments of the command are given. -/
theorem extra_argument_is_refused (off : V) (root m : Node V) (items : List (Item V))
    (subs : List (Text × List (Item V))) (k : Nat) (h : LineOpen off root items subs m k) (a : Text)
    (ha : a ≠ [] ∧ a.head? ≠ some '-') (hsub : Dict.get m.children a = none) (hk : m.positional.length ≤ k)
    (rest : List Text) : ∃ e, parse off root (renderLine items subs ++ a :: rest) = .error e := by
  rcases line_reaches off subs root items [] [] (a :: rest) m k h with ⟨e, he⟩ | ⟨path, args, parents, he⟩
  · exact ⟨e, he⟩
  · cases a with
    | nil => exact absurd rfl ha.1
    | cons c a =>
      refine ⟨.unexpected (c :: a), ?_⟩
      rw [parse, he]
      refine loop_error off { node := m, path := path, args := args, index := k, parents := parents, buf := (c :: a) :: rest }
          _ c a rest rfl ?_
      have hp : m.positional[k]? = none := by simp [hk]
      unfold step
      simp only [ha.2, if_false, hsub, hp]
      split <;> rfl

/-- `pkm -vq --repo a -r=b remove` -/
example : ∃ e, parse [] Example.root (renderLine Example.rootItems [] ++ "remove".toList :: []) = .error e :=
  extra_argument_is_refused [] Example.root Example.root Example.rootItems [] 0
    ⟨Example.rootItems_ok false, rfl, rfl⟩ "remove".toList ⟨by decide, by decide⟩ rfl (by decide) []

/-- C48. The fields typed after the value of an argument are bound: each has the value last given to it, or else its
default; what follows them is left. -/
theorem fields_are_read_as_typed (fs : List (FieldDef V)) (hnd : (fs.map (·.name)).Nodup)
    (us : List (FieldDef V × Use × Arg V)) (h : FieldUsesOk fs us) (v : Arg V) (rest : List Text)
    (hr : ∀ a, rest.head? = some a → a.head? ≠ some '+') (hc : ∀ f ∈ fs, fieldValue f us ≠ none) :
    ∃ acc, readFields (some fs) v (us.flatMap (fun q => q.2.1.render) ++ rest) = .ok (.fields v acc, rest) ∧
      ∀ f ∈ fs, Dict.get acc f.name = fieldValue f us := by
  have hl := fieldLoop_uses fs us h rest hr _ [] (Nat.le_refl _)
  have hget := fun n => foldl_fields us n []
  obtain ⟨acc, h1, h2, _⟩ := fieldDefaults_ok fs hnd (us.foldl (fun acc q => Dict.put acc q.1.name q.2.2) []) (by
    intro f hf hd hn
    apply hc f hf
    rw [hget] at hn
    unfold fieldValue
    rw [hd]
    exact hn)
  refine ⟨acc, by simp [readFields, hl, h1], ?_⟩
  intro f hf
  rw [h2 f hf, hget]
  unfold fieldValue
  simp [Dict.get]

theorem posLoop_short (p : PosDef V) (hf : p.fields = none) (vs : List (Text × V)) (hc : ∀ q ∈ vs, p.conv q.1 = some q.2) :
    ∀ (n l : Nat) (acc : List (Arg V)), size (vs.map (·.1)) ≤ n → vs.length < l →
    posLoop p n (some l) acc (vs.map (·.1)) = .ok (acc ++ vs.map (fun q => .val q.2), []) := by
  induction vs with
  | nil =>
    intro n l acc hn hl
    cases n <;> simp [posLoop]
  | cons q vs ih =>
    intro n l acc hn hl
    simp only [List.map_cons, size_cons, List.length_cons] at hn hl ⊢
    cases n with
    | zero => omega
    | succ n =>
      have hq := hc q (by simp)
      obtain ⟨l, rfl⟩ : ∃ l', l = l' + 1 := ⟨l - 1, by omega⟩
      rw [posLoop]
      · simp only [hq, hf, readFields, Option.map_some, Nat.add_sub_cancel]
        rw [ih (fun x hx => hc x (by simp [hx])) n _ _ (by omega) (by omega)]
        simp
      · intro h; simp at h

/-- C48. After any commands and items that fit, a positional argument with too few values at the end of the line is
refused. -/
theorem too_few_values_are_refused (off : V) (root m : Node V) (items : List (Item V))
    (subs : List (Text × List (Item V))) (k : Nat) (h : LineOpen off root items subs m k) (p : PosDef V) (j : Nat)
    (hp : m.positional[k]? = some p) (hf : p.fields = none) (hj : p.extra = some j)
    (q : Text × V) (vs : List (Text × V)) (ha : PlainArg q.1) (hc : Dict.get m.children q.1 = none)
    (hv : ∀ x ∈ q :: vs, p.conv x.1 = some x.2) (hlen : vs.length < j) :
    ∃ e, parse off root (renderLine items subs ++ (q :: vs).map (·.1)) = .error e := by
  rcases line_reaches off subs root items [] [] ((q :: vs).map (·.1)) m k h with ⟨e, he⟩ | ⟨path, args, parents, he⟩
  · exact ⟨e, he⟩
  · obtain ⟨a, w⟩ := q
    cases a with
    | nil => exact absurd rfl ha.1
    | cons c a =>
      refine ⟨.value, ?_⟩
      rw [parse, he]
      have hl := posLoop_short p hf (((c :: a), w) :: vs) hv (size ((c :: a) :: vs.map (·.1))) (j + 1) [] (by simp)
        (by simp; omega)
      have hlen' : ¬ (j + 1 = vs.length + 1) := by omega
      have h1 : ¬ (c :: a).head? = some '-' := ha.2.1
      have h2 : ¬ (c :: a).head? = some '+' := ha.2.2
      refine loop_error off { node := m, path := path, args := args, index := k, parents := parents, buf := ((c :: a), w) :: vs |>.map (·.1) }
        .value c a (vs.map (·.1)) rfl ?_
      simp only [step, h1, h2, if_false]
      simp only at hc
      simp only [hc, hp, readPositional, hj, Option.map_some]
      have hpv : posValue p (([] : List (Arg V)) ++ (((c :: a), w) :: vs).map (fun q => .val q.2)) = .error .value := by
        unfold posValue
        simp only [hj]
        rw [if_pos (by simp; omega)]
      simp only [List.map_cons] at hl hpv
      simp only [hl, hpv]

namespace Example
/-- an argument with two values -/
def pair : PosDef Text := { name := "pair".toList, extra := some 1, conv := any }
def copy : Node Text := .mk (some { options := [], positional := [pair] }) []
end Example

/-- `copy from`, with the second value missing -/
example : ∃ e, parse [] Example.copy ["from".toList] = .error e :=
  too_few_values_are_refused [] Example.copy Example.copy [] [] 0 ⟨trivial, rfl, rfl⟩ Example.pair 1 rfl rfl rfl
    ("from".toList, "from".toList) [] ⟨by decide, by decide, by decide⟩ rfl (by intro x hx; simp at hx; subst hx; rfl) (by decide)

/-- C48. A field without a value and without a default is reported. -/
theorem missing_field_is_refused (fs : List (FieldDef V)) (hnd : (fs.map (·.name)).Nodup)
    (us : List (FieldDef V × Use × Arg V)) (h : FieldUsesOk fs us) (v : Arg V) (rest : List Text)
    (hr : ∀ a, rest.head? = some a → a.head? ≠ some '+') (f : FieldDef V) (hf : f ∈ fs) (hn : fieldValue f us = none) :
    ∃ e, readFields (some fs) v (us.flatMap (fun q => q.2.1.render) ++ rest) = .error e := by
  have hl := fieldLoop_uses fs us h rest hr _ [] (Nat.le_refl _)
  have hget := fun n => foldl_fields us n ([] : List (Text × Arg V))
  cases hd : fieldDefaults fs (us.foldl (fun acc q => Dict.put acc q.1.name q.2.2) []) with
  | error e => exact ⟨e, by simp [readFields, hl, hd]⟩
  | ok acc =>
    exfalso
    unfold fieldValue at hn
    rw [Option.or_eq_none_iff] at hn
    refine fieldDefaults_inv fs hnd _ _ hd f hf hn.2 ?_
    rw [hget, hn.1]
    simp [Dict.get]

/-- C48. Reading takes no more turns than there are characters and arguments: it always ends. -/
theorem parse_ends (off : V) (root : Node V) (args : List Text) (n : Nat) (h : size args ≤ n) :
    loop off n { node := root, buf := args } = parse off root args :=
  loop_fuel off n _ h

namespace Example

def name : FieldDef Text :=
  { names := ["+n".toList, "+name".toList], name := "name".toList, default := some (.val "main".toList), reader := .text any }

def only : FieldDef Text := { names := ["+only".toList], name := "only".toList, default := none, reader := .flag }

/-- `+n a +only +name=b` -/
def uses : List (FieldDef Text × Use × Arg Text) :=
  [(name, .sep "+n".toList "a".toList, .val "a".toList), (only, .flag "+only".toList, .flag),
   (name, .eq "+name".toList "b".toList, .val "b".toList)]

theorem uses_ok : FieldUsesOk [name, only] uses := by
  intro q hq
  simp [uses] at hq
  have hu : ∀ f' ∈ [name, only], ∀ n, n ∈ name.names → n ∈ f'.names → f' = name := by
    intro f' hf' n hn hn'
    simp at hf'
    rcases hf' with rfl | rfl
    · rfl
    · simp [name, only] at hn hn'
      rcases hn with rfl | rfl <;> exact absurd hn' (by decide)
  rcases hq with rfl | rfl | rfl
  · exact ⟨⟨by simp, by decide, fun f' hf' h => hu f' hf' _ (by decide) h⟩,
      ⟨by decide, by intro c hc; simp [Use.name] at hc; subst hc; decide, by intro c hc; simp [Use.name] at hc; subst hc; decide⟩,
      rfl, _, rfl, rfl⟩
  · refine ⟨⟨by simp, by decide, ?_⟩,
      ⟨by decide, by intro c hc; simp [Use.name] at hc; subst hc; decide, by intro c hc; simp [Use.name] at hc; subst hc; decide⟩,
      rfl, rfl⟩
    intro f' hf' h
    simp at hf'
    rcases hf' with rfl | rfl
    · exact absurd h (by decide)
    · rfl
  · exact ⟨⟨by simp, by decide, fun f' hf' h => hu f' hf' _ (by decide) h⟩,
      ⟨by decide, by intro c hc; simp [Use.name] at hc; subst hc; decide, by intro c hc; simp [Use.name] at hc; subst hc; decide⟩,
      rfl, by decide, ⟨by intro c hc; simp at hc; subst hc; decide, by intro c hc; simp at hc; subst hc; decide⟩, _, rfl, rfl⟩

end Example

/-- `+n a +only +name=b x` -/
example : ∃ acc, readFields (some [Example.name, Example.only]) (.val "v".toList)
    (Example.uses.flatMap (fun q => q.2.1.render) ++ ["x".toList]) = .ok (.fields (.val "v".toList) acc, ["x".toList]) ∧
    ∀ f ∈ [Example.name, Example.only], Dict.get acc f.name = fieldValue f Example.uses :=
  fields_are_read_as_typed _ (by decide) _ Example.uses_ok _ _ (by intro a ha; simp at ha; subst ha; decide)
    (by
      intro f hf
      simp at hf
      rcases hf with rfl | rfl <;> simp [fieldValue, Example.uses, Example.name, Example.only])

/-- `x`, without the required field -/
example : ∃ e, readFields (some [Example.name, Example.only]) (.val "v".toList)
    ((Example.uses.take 1).flatMap (fun q => q.2.1.render) ++ ["x".toList]) = .error e :=
  missing_field_is_refused _ (by decide) _ (fun q hq => Example.uses_ok q (List.mem_of_mem_take hq)) _ _
    (by intro a ha; simp at ha; subst ha; decide) Example.only (by simp)
    (by simp [fieldValue, Example.uses, Example.name, Example.only])

/-! ### What is not read as typed -/

/-- C48, violated: whatever follows an empty argument is ignored, without an error. -/
theorem empty_argument_violated (off : V) (root : Node V) (items : List (Item V)) (h : ItemsOk off root 0 items false)
    (rest : List Text) : parse off root (renderLine items [] ++ [] :: rest) = parse off root (renderLine items []) := by
  have e1 := loop_items off root items 0 false { node := root, buf := renderLine items [] ++ [] :: rest } ([] :: rest) h
    (by simp) rfl rfl (by simp [renderLine])
  have e2 := loop_items off root items 0 false { node := root, buf := renderLine items [] } [] h
    (by simp) rfl rfl (by simp [renderLine])
  simp only at e1 e2
  have e3 := loop_nil off { node := root, args := runItems root 0 items [], index := nextItems 0 items, buf := [] } rfl (size [])
  rw [parse, parse, e1, e2, e3, size_cons, List.length_nil, Nat.zero_add, Nat.add_comm, loop]
  rfl

/-- `pkm -vq --repo a -r=b "" install` -/
example : parse [] Example.root (renderLine Example.rootItems [] ++ [] :: ["install".toList]) =
    parse [] Example.root (renderLine Example.rootItems []) :=
  empty_argument_violated _ _ _ (Example.rootItems_ok false) _

/-- C48, violated: a value typed with a flag is read as the next argument: `pkm --quiet=install ...` runs the
sub-command. -/
theorem flag_with_value_violated :
    parse [] Example.root ["--quiet=install".toList, "-s".toList, "h".toList, "t".toList, "p".toList] =
    parse [] Example.root ["--quiet".toList, "install".toList, "-s".toList, "h".toList, "t".toList, "p".toList] := by
  rfl

/-- C48, violated: an empty value is not a value, the next argument is taken: `pkm --repo= -v` is `pkm --repo -v`. -/
theorem empty_value_violated :
    parse [] Example.root ["--repo=".toList, "-v".toList] = parse [] Example.root ["--repo".toList, "-v".toList] ∧
    ∃ args, parse [] Example.root ["--repo=".toList, "-v".toList] = .ok [([], args)] ∧
      args.get "repo".toList = some (.many [.val "-v".toList]) ∧ args.get "verbose".toList = some (.val []) := by
  exact ⟨rfl, _, rfl, rfl, rfl⟩

/-- C48, violated: blanks around a value after an equals sign are lost. -/
theorem value_blanks_violated :
    ∃ args, parse [] Example.root ["--repo= a ".toList] = .ok [([], args)] ∧
      args.get "repo".toList = some (.many [.val "a".toList]) := by
  exact ⟨_, rfl, rfl⟩

/-- C48, violated: an option after the values of a positional argument that takes any number of them is one of the
values: `pkm install -s h t p --help` installs `--help`. -/
theorem option_after_values_violated :
    ∃ a args, parse [] Example.root ["install".toList, "-s".toList, "h".toList, "t".toList, "p".toList, "--help".toList] =
      .ok [([], a), (["install".toList], args)] ∧
      args.get "packages".toList = some (.many [.val "p".toList, .val "--help".toList]) ∧
      args.get "help".toList = some (.val []) := by
  exact ⟨_, _, rfl, rfl, rfl⟩

/-- C48, violated: a lone `-` is ignored. -/
theorem lone_dash_violated : parse [] Example.root ["-".toList, "-v".toList] = parse [] Example.root ["-v".toList] := by
  rfl

end Cli
end Pkm
