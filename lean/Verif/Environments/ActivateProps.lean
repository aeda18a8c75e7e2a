import Verif.Environments.Activate
set_option linter.unusedVariables false
set_option linter.unusedSimpArgs false
/-
Property C44: leaving an activated environment restores the variables.
-/
namespace Pkm.Act

theorem path_ne_venv : PATH ≠ VENV := by decide

/-- C44: whatever the body does and however it ends, if it leaves the two variables set, afterwards
they have the values they had before (or are unset as before); every other variable is as the body left
it, and the body's exception goes on. -/
theorem activate_restores (scripts path : Text) (body : Vars → Vars × Out) (v : Vars)
    (h1 : (body (enter scripts path v)).1 PATH ≠ none) (h2 : (body (enter scripts path v)).1 VENV ≠ none) :
    (activate scripts path body v).1 PATH = v PATH ∧ (activate scripts path body v).1 VENV = v VENV ∧
    (∀ k, k ≠ PATH → k ≠ VENV → (activate scripts path body v).1 k = (body (enter scripts path v)).1 k) ∧
    (activate scripts path body v).2 = (body (enter scripts path v)).2 := by
  have hpv := path_ne_venv
  simp only [activate]
  cases hb : body (enter scripts path v) with
  | mk v' o =>
    rw [hb] at h1 h2
    simp only at h1 h2
    obtain ⟨a, ha⟩ := Option.ne_none_iff_exists'.1 h1
    obtain ⟨b, hb'⟩ := Option.ne_none_iff_exists'.1 h2
    cases hp : v PATH <;> cases hv : v VENV <;>
      simp [leave, restore, ha, hb', Vars.set, Vars.del, hpv, Ne.symm hpv] <;>
      intro k h1 h2 <;> simp [h1, h2]

/-- Variables set before are restored even if the body deletes them. -/
theorem activate_restores_set (scripts path : Text) (body : Vars → Vars × Out) (v : Vars) (a b : Text)
    (h1 : v PATH = some a) (h2 : v VENV = some b) :
    (activate scripts path body v).1 PATH = some a ∧ (activate scripts path body v).1 VENV = some b := by
  have hpv := path_ne_venv
  simp only [activate]
  cases hb : body (enter scripts path v) with
  | mk v' o => simp [leave, restore, h1, h2, Vars.set, hpv]

/-- Programs that do not themselves set or delete `PATH` or `VIRTUAL_ENV`, and without zoo. -/
def Untouched : Prog → Prop
  | .del k => k ≠ PATH ∧ k ≠ VENV
  | .set k _ => k ≠ PATH ∧ k ≠ VENV
  | .seq a b => Untouched a ∧ Untouched b
  | .activate _ _ b => Untouched b
  | .zoo _ _ => False
  | _ => True

theorem enter_set (scripts path : Text) (v : Vars) :
    (enter scripts path v) PATH = some (newPath scripts (v PATH)) ∧ (enter scripts path v) VENV = some path := by
  simp [enter, Vars.set, path_ne_venv]

/-- A program that does not touch the two variables itself leaves them as they were, whatever it
activates. -/
theorem untouched_keeps (p : Prog) : ∀ v, Untouched p → (p.run v).1 PATH = v PATH ∧ (p.run v).1 VENV = v VENV := by
  induction p with
  | skip => intro v _; exact ⟨rfl, rfl⟩
  | set k t =>
    intro v h
    simp only [Untouched] at h
    simp [Prog.run, Vars.set, Ne.symm h.1, Ne.symm h.2]
  | del k =>
    intro v h
    simp only [Untouched] at h
    simp only [Prog.run]
    split <;> simp [Vars.del, Ne.symm h.1, Ne.symm h.2]
  | raise => intro v _; exact ⟨rfl, rfl⟩
  | seq a b iha ihb =>
    intro v h
    have h1 := iha v h.1
    simp only [Prog.run]
    split
    · rename_i v' he
      rw [he] at h1
      have h2 := ihb v' h.2
      exact ⟨h2.1.trans h1.1, h2.2.trans h1.2⟩
    · rename_i v' o _ he
      rw [he] at h1
      exact h1
  | activate s q b ih =>
    intro v h
    have h1 := ih (enter s q v) h
    have h2 := enter_set s q v
    have h3 := activate_restores s q b.run v (by rw [h1.1, h2.1]; simp) (by rw [h1.2, h2.2]; simp)
    exact ⟨h3.1, h3.2.1⟩
  | zoo d b => intro v h; exact h.elim

/-- C44: activations nested to any depth, in programs that may raise anywhere: after leaving, the two
variables are as before, and inside every block they are the ones of the innermost activation, also
after inner blocks were left. -/
theorem activate_nested (scripts path : Text) (body : Prog) (h : Untouched body) (v : Vars) :
    ((Prog.activate scripts path body).run v).1 PATH = v PATH ∧
    ((Prog.activate scripts path body).run v).1 VENV = v VENV ∧
    (body.run (enter scripts path v)).1 PATH = some (newPath scripts (v PATH)) ∧
    (body.run (enter scripts path v)).1 VENV = some path ∧
    ((Prog.activate scripts path body).run v).2 = (body.run (enter scripts path v)).2 := by
  have h1 := untouched_keeps (.activate scripts path body) v h
  have h2 := untouched_keeps body (enter scripts path v) h
  have h3 := enter_set scripts path v
  refine ⟨h1.1, h1.2, h2.1.trans h3.1, h2.2.trans h3.2, ?_⟩
  exact (activate_restores scripts path body.run v (by rw [h2.1, h3.1]; simp) (by rw [h2.2, h3.2]; simp)).2.2.2

/-- The value of `PATH` inside nested activations: the directories, innermost first, then the old
value. -/
def nestedVars : List (Text × Text) → Vars → Vars
  | [], v => v
  | (s, p) :: es, v => nestedVars es (enter s p v)

/-- C44: inside activations nested to any depth `PATH` starts with the script directories, innermost
first, followed by the old value, and `VIRTUAL_ENV` is the innermost environment. -/
theorem activate_search_order (es : List (Text × Text)) (v : Vars) (old : Text) (hv : v PATH = some old)
    (hne : old ≠ []) :
    nestedVars es v PATH = some (((es.map (fun e => e.1 ++ [':'])).reverse.flatten) ++ old) ∧
    nestedVars es v VENV = match es.getLast? with
      | none => v VENV
      | some e => some e.2 := by
  induction es generalizing v old with
  | nil => exact ⟨by simp [nestedVars, hv], rfl⟩
  | cons e es ih =>
    obtain ⟨s, p⟩ := e
    have h1 := enter_set s p v
    have hp : newPath s (v PATH) = s ++ (':' :: old) := by
      rw [hv]
      cases old with
      | nil => exact absurd rfl hne
      | cons c cs => rfl
    rw [hp] at h1
    have h2 := ih (enter s p v) (s ++ (':' :: old)) h1.1 (by simp)
    simp only [nestedVars]
    refine ⟨by rw [h2.1]; simp, ?_⟩
    rw [h2.2]
    cases es with
    | nil => simpa using h1.2
    | cons x xs =>
      rw [List.getLast?_cons_cons]
      cases hl : (x :: xs).getLast? with
      | none => simp at hl
      | some y => rfl

/-- The hypotheses are met, with a raise inside two blocks. -/
example : Untouched (.seq (.set "X".toList ['1']) (.activate ['s'] ['p'] (.seq (.activate ['t'] ['q'] .raise) .skip))) := by
  simp [Untouched]; decide

/-- C44 for the zoo: if `PATH` was set and not empty, or not set and the body leaves it set, it is as before. -/
theorem zoo_restores_partial (bin : Text) (body : Vars → Vars × Out) (v : Vars) (h : v PATH ≠ some [])
    (hb : (body (v.set PATH (newPath bin (v PATH)))).1 PATH ≠ none) :
    (zooActivate bin body v).1 PATH = v PATH ∧
    (∀ k, k ≠ PATH → (zooActivate bin body v).1 k = (body (v.set PATH (newPath bin (v PATH)))).1 k) ∧
    (zooActivate bin body v).2 = (body (v.set PATH (newPath bin (v PATH)))).2 := by
  simp only [zooActivate]
  cases hx : body (v.set PATH (newPath bin (v PATH))) with
  | mk v' o =>
    rw [hx] at hb
    simp only at hb
    obtain ⟨a, ha⟩ := Option.ne_none_iff_exists'.1 hb
    cases hp : v PATH with
    | none =>
      simp [zooLeave, restore, ha, Vars.del]
      intro k hk; simp [hk]
    | some t =>
      cases t with
      | nil => exact absurd hp h
      | cons c cs =>
        simp [zooLeave, restore, Vars.set]
        intro k hk; simp [hk]

/-- An empty `PATH` is unset by leaving the zoo. -/
theorem zoo_empty_path_violated :
    let v : Vars := fun k => if k = PATH then some [] else none
    v PATH = some [] ∧ (zooActivate ['b'] (fun v => (v, .ok)) v).1 PATH = none := ⟨rfl, rfl⟩

/-- When the variables were unset and the body deletes `PATH`, leaving raises a `KeyError` and
`VIRTUAL_ENV` stays set. -/
theorem activate_deleted_violated :
    let v : Vars := fun _ => none
    ((Prog.activate ['s'] ['p'] (.del PATH)).run v).1 VENV = some ['p'] ∧
    ((Prog.activate ['s'] ['p'] (.del PATH)).run v).2 = .keyError := by
  constructor <;> decide +kernel

/-- Two threads that activate on the same variables and leave in the order they came: the variables are
those of the second environment's entry. -/
theorem activate_threads_violated :
    let v : Vars := fun _ => none
    let a := enter ['s'] ['p'] v
    let b := enter ['t'] ['q'] a
    let c := (leave (v PATH) (v VENV) b .ok).1
    let d := (leave (a PATH) (a VENV) c .ok).1
    v PATH = none ∧ d PATH = some ['s'] ∧ d VENV = some ['p'] := by
  refine ⟨rfl, ?_, ?_⟩ <;> decide +kernel

/-- C44: if `PATH` was unset or empty, inside activations nested to any depth it is the script directories,
innermost first, and nothing else (an empty entry would be the working directory). -/
theorem activate_search_order_unset (s p : Text) (es : List (Text × Text)) (v : Vars)
    (hv : v PATH = none ∨ v PATH = some []) (hs : s ≠ []) :
    nestedVars ((s, p) :: es) v PATH = some (((es.map (fun e => e.1 ++ [':'])).reverse.flatten) ++ s) := by
  have h1 := (enter_set s p v).1
  have hp : newPath s (v PATH) = s := by rcases hv with h | h <;> rw [h] <;> rfl
  rw [hp] at h1
  exact (activate_search_order es (enter s p v) s h1 hs).1

example : nestedVars [("/a/bin".toList, "/a".toList), ("/b/bin".toList, "/b".toList)] (fun _ => none) PATH = some "/b/bin:/a/bin".toList := by decide

/-- The value of a variable before the activation for a process: of those passed, or, if none are passed or an empty
dictionary, of this process. -/
def Before (passed : Option (List (Text × Text))) (osEnv : Vars) (k : Text) (o : Option Text) : Prop :=
  ((passed = none ∨ passed = some []) ∧ o = osEnv k) ∨
  ∃ l, passed = some l ∧ l ≠ [] ∧ ∀ t, o = some t ↔ (k, t) ∈ l

theorem find_passed (k : Text) : ∀ l : List (Text × Text), (l.map (·.1)).Nodup →
    ∀ t, (l.find? (fun e => e.1 == k)).map (·.2) = some t ↔ (k, t) ∈ l := by
  intro l
  induction l with
  | nil => simp
  | cons e es ih =>
    obtain ⟨a, b⟩ := e
    intro hn t
    simp only [List.map_cons, List.nodup_cons] at hn
    by_cases he : a = k
    · subst he
      have hno : (a, t) ∉ es := fun h => hn.1 (List.mem_map.2 ⟨_, h, rfl⟩)
      simp only [List.find?_cons, beq_self_eq_true, Option.map_some, List.mem_cons, Option.some.injEq, Prod.mk.injEq, true_and]
      exact ⟨fun h => .inl h.symm, fun h => h.elim Eq.symm (fun h => absurd h hno)⟩
    · have : (a == k) = false := by simpa using he
      simp only [List.find?_cons, this, ih hn.2 t, List.mem_cons, Prod.mk.injEq]
      exact ⟨.inr, fun h => h.elim (fun h => absurd h.1.symm he) id⟩

theorem before_eq {passed : Option (List (Text × Text))} {osEnv : Vars} {k : Text} {o o' : Option Text}
    (h : Before passed osEnv k o) (h' : Before passed osEnv k o') : o = o' := by
  rcases h with ⟨h, rfl⟩ | ⟨l, h, hne, hl⟩ <;> rcases h' with ⟨h', rfl⟩ | ⟨l', h', hne', hl'⟩
  · rfl
  · rcases h with h | h <;> rw [h] at h' <;> simp at h'; exact absurd h' hne'
  · rcases h' with h' | h' <;> rw [h'] at h <;> simp at h; exact absurd h hne
  · obtain rfl : l = l' := by rw [h] at h'; exact Option.some.inj h'
    cases o with
    | some t => exact ((hl' t).2 ((hl t).1 rfl)).symm
    | none =>
      cases o' with
      | none => rfl
      | some t => exact (hl t).2 ((hl' t).1 rfl)

theorem proc_base (scripts path : Text) (passed : Option (List (Text × Text))) (osEnv : Vars)
    (hn : ∀ l, passed = some l → (l.map (·.1)).Nodup) :
    ∃ v : Vars, (∀ k, Before passed osEnv k (v k)) ∧ procVars scripts path passed osEnv = enter scripts path v := by
  cases passed with
  | none => exact ⟨osEnv, fun k => .inl ⟨.inl rfl, rfl⟩, rfl⟩
  | some l =>
    cases l with
    | nil => exact ⟨osEnv, fun k => .inl ⟨.inr rfl, rfl⟩, rfl⟩
    | cons e es => exact ⟨_, fun k => .inr ⟨_, rfl, by simp, find_passed k _ (hn _ rfl)⟩, rfl⟩

/-- C44: `run_proc` gives the process the scripts directory first in `PATH`, followed by the old value unless there is
none or it is empty, and the environment as `VIRTUAL_ENV`; every other variable is as passed (or not passed), or, if
nothing is passed, as in this process. -/
theorem run_proc_vars (scripts path : Text) (passed : Option (List (Text × Text))) (osEnv : Vars)
    (hn : ∀ l, passed = some l → (l.map (·.1)).Nodup) :
    procVars scripts path passed osEnv VENV = some path ∧
    (∀ old, Before passed osEnv PATH (some old) → old ≠ [] →
      procVars scripts path passed osEnv PATH = some (scripts ++ ':' :: old)) ∧
    (Before passed osEnv PATH none ∨ Before passed osEnv PATH (some []) →
      procVars scripts path passed osEnv PATH = some scripts) ∧
    ∀ k, k ≠ PATH → k ≠ VENV → Before passed osEnv k (procVars scripts path passed osEnv k) := by
  obtain ⟨v, hv, he⟩ := proc_base scripts path passed osEnv hn
  have h := enter_set scripts path v
  rw [he]
  refine ⟨h.2, ?_, ?_, ?_⟩
  · intro old ho hne
    rw [h.1, ← before_eq ho (hv PATH)]
    cases old with
    | nil => exact absurd rfl hne
    | cons c cs => rfl
  · intro ho
    rw [h.1]
    rcases ho with ho | ho <;> rw [← before_eq ho (hv PATH)] <;> rfl
  · intro k hk hk'
    have : enter scripts path v k = v k := by simp [enter, Vars.set, hk, hk']
    rw [this]
    exact hv k

/-- Variables passed, and what the process gets. -/
example : procVars "/e/bin".toList "/e".toList (some [(PATH, "/bin".toList), (['X'], ['1'])]) (fun _ => some ['o']) PATH = some "/e/bin:/bin".toList ∧
    procVars "/e/bin".toList "/e".toList (some [(PATH, "/bin".toList), (['X'], ['1'])]) (fun _ => some ['o']) ['X'] = some ['1'] ∧
    procVars "/e/bin".toList "/e".toList (some [(PATH, "/bin".toList), (['X'], ['1'])]) (fun _ => some ['o']) ['Y'] = none ∧
    Before (some [(PATH, "/bin".toList), (['X'], ['1'])]) (fun _ => some ['o']) PATH (some "/bin".toList) :=
  ⟨by decide, by decide, by decide, .inr ⟨_, rfl, by simp, by simp [PATH]; intro t; exact ⟨Eq.symm, Eq.symm⟩⟩⟩

end Pkm.Act
