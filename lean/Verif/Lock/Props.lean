import Verif.Lock.Model
import Verif.Collections.Props
import Verif.Names.Props
import Verif.VersionText.Props
set_option linter.unusedVariables false
set_option linter.unusedSimpArgs false
/-
Properties C19 (updating the lock), C20 (lock preference) and C21 (lock file).
-/
namespace Pkm
open Lock

namespace Spec

/-- The packages locked for an environment, in file order. -/
def lockedFor (l : Lock) (env : Text) : List Desc := l.envSpecific env

/-- The entries of one package for one environment, in order. -/
def lockedOf (l : Lock) (name env : Text) : List Desc :=
  (((Dict.get l name).getD []).filter (fun lk => lk.envHash == env)).map (·.package)

/-- One operation on a lock. -/
inductive LockOp where
  | update (env : Text) (installed : List Desc)
  | unlock (names : List Text)

/-- Its effect. -/
def LockOp.run (l : Lock) : LockOp → Lock
  | .update env installed => l.update env installed
  | .unlock names => l.unlock names

/-- The installed packages reported by the last update of `env`, if any. -/
def lastUpdate (env : Text) : List (Text × List Desc) → Option (List Desc)
  | [] => none
  | (e, ds) :: us => match lastUpdate env us with
    | some r => some r
    | none => if e = env then some ds else none

/-- The dictionary of a lock is grouped by package name without empty groups. -/
def Grouped (l : Lock) : Prop :=
  Dict.Wf l ∧ ∀ n ls, (n, ls) ∈ l → ls ≠ [] ∧ ∀ lk ∈ ls, lk.package.name = n

end Spec
open Spec

/-! ## Helper lemmas -/

theorem flat_ofList (ls : List Locked) : (Lock.flat (Lock.ofList ls)).Perm ls :=
  groupby_loses_nothing ls _

theorem get_ofList (ls : List Locked) (n : Text) :
    ((Dict.get (Lock.ofList ls) n).getD []) = ls.filter (fun lk => decide (lk.package.name = n)) := by
  unfold Lock.ofList
  rw [groupby_groups]
  split
  · rename_i h
    simp only [List.isEmpty_iff] at h
    rw [h]; rfl
  · rfl

theorem grouped_ofList (ls : List Locked) : Grouped (Lock.ofList ls) := by
  refine ⟨(groupby_keys ls _).1, ?_⟩
  intro n gs h
  have hg := Dict.mem_get _ _ _ (groupby_keys ls (fun it => it.package.name)).1 h
  rw [groupby_groups] at hg
  split at hg
  · simp at hg
  · rename_i hne
    simp at hg
    subst hg
    refine ⟨by simpa using hne, ?_⟩
    intro lk hlk
    simpa using (List.mem_filter.1 hlk).2

theorem filter_flat_grouped (l : Lock) (h : Grouped l) (n : Text) :
    l.flat.filter (fun lk => decide (lk.package.name = n)) = (Dict.get l n).getD [] := by
  obtain ⟨hwf, hg⟩ := h
  induction l with
  | nil => rfl
  | cons p l ih =>
    obtain ⟨m, ls⟩ := p
    have hwf' : Dict.Wf l := by
      simp only [Dict.Wf, Dict.keys, List.map_cons, List.nodup_cons] at hwf; exact hwf.2
    have hm : m ∉ Dict.keys l := by
      simp only [Dict.Wf, Dict.keys, List.map_cons, List.nodup_cons] at hwf; exact hwf.1
    have ih' := ih hwf' (fun a b hab => hg a b (by simp [hab]))
    have hls := (hg m ls (by simp)).2
    have hflat : Lock.flat ((m, ls) :: l) = ls ++ Lock.flat l := by simp [Lock.flat, Dict.values]
    rw [hflat, List.filter_append, ih']
    by_cases e : m = n
    · subst e
      have h1 : ls.filter (fun lk => decide (lk.package.name = m)) = ls := by
        rw [List.filter_eq_self]; intro a ha; simp [hls a ha]
      have h2 : Dict.get l m = none := (Dict.get_none_iff l m).2 hm
      simp [Dict.get, h1, h2]
    · have h1 : ls.filter (fun lk => decide (lk.package.name = n)) = [] := by
        rw [List.filter_eq_nil_iff]; intro a ha; simp [hls a ha, e]
      simp [Dict.get, h1, e]

theorem grouped_del (l : Lock) (n : Text) (h : Grouped l) : Grouped (Dict.del l n) := by
  refine ⟨Dict.wf_del l n h.1, ?_⟩
  intro a b hab
  rw [Dict.del_eq_filter] at hab
  exact h.2 a b (List.mem_filter.1 hab).1

theorem grouped_unlock (l : Lock) (ns : List Text) (h : Grouped l) : Grouped (l.unlock ns) := by
  unfold Lock.unlock
  induction ns generalizing l with
  | nil => exact h
  | cons n ns ih => exact ih _ (grouped_del l n h)

/-! ## C19 -/

/-- C19: after `update_lock(env)` the locks of `env` are exactly its installed packages. -/
theorem update_lock_env (l : Lock) (env : Text) (installed : List Desc) :
    (lockedFor (l.update env installed) env).Perm installed := by
  unfold lockedFor Lock.envSpecific Lock.update
  have h := (flat_ofList (l.flat.filter (fun lk => lk.envHash != env) ++
    installed.map (fun d => (⟨env, d⟩ : Locked)))).filter (fun lp => lp.envHash == env)
  refine (h.map _).trans ?_
  rw [List.filter_append, List.filter_filter]
  have h1 : List.filter (fun a : Locked => (a.envHash == env) && (a.envHash != env)) l.flat = [] := by
    rw [List.filter_eq_nil_iff]; intro a ha; simp
  have h2 : ∀ ds : List Desc, List.filter (fun lp : Locked => lp.envHash == env)
      (ds.map (fun d => (⟨env, d⟩ : Locked))) = ds.map (fun d => ⟨env, d⟩) := by
    intro ds; rw [List.filter_eq_self]; intro a ha
    obtain ⟨d, _, rfl⟩ := List.mem_map.1 ha; simp
  rw [h1, h2, List.nil_append, List.map_map]
  have h3 : installed.map ((fun x : Locked => x.package) ∘ fun d => (⟨env, d⟩ : Locked)) = installed := by
    induction installed with
    | nil => rfl
    | cons d ds ih => exact congrArg (d :: ·) (List.map_id' ds)
  rw [h3]

/-- C19: the locks of every other environment are what they were. -/
theorem update_lock_others (l : Lock) (env other : Text) (installed : List Desc) (hne : other ≠ env) :
    (lockedFor (l.update env installed) other).Perm (lockedFor l other) := by
  unfold lockedFor Lock.envSpecific Lock.update
  have h := (flat_ofList (l.flat.filter (fun lk => lk.envHash != env) ++
    installed.map (fun d => (⟨env, d⟩ : Locked)))).filter (fun lp => lp.envHash == other)
  refine (h.map _).trans ?_
  rw [List.filter_append, List.filter_filter]
  have h1 : List.filter (fun a : Locked => (a.envHash == other) && (a.envHash != env)) l.flat =
      List.filter (fun a : Locked => (a.envHash == other)) l.flat := by
    apply List.filter_congr
    intro a _
    by_cases e : a.envHash = other
    · simp [e, hne]
    · simp [e]
  have h2 : List.filter (fun lp : Locked => lp.envHash == other)
      (installed.map (fun d => (⟨env, d⟩ : Locked))) = [] := by
    rw [List.filter_eq_nil_iff]; intro a ha
    obtain ⟨d, _, rfl⟩ := List.mem_map.1 ha; simpa using hne.symm
  rw [h1, h2]
  simp

/-- C19: after any sequence of updates, every environment has the packages of its own last update, or,
if it never updated, what the lock held at the start. -/
theorem update_lock_history (l : Lock) (us : List (Text × List Desc)) (env : Text) :
    (lockedFor (us.foldl (fun l u => l.update u.1 u.2) l) env).Perm
      ((lastUpdate env us).getD (lockedFor l env)) := by
  induction us generalizing l with
  | nil => exact .refl _
  | cons u us ih =>
    obtain ⟨e, ds⟩ := u
    refine (ih (l.update e ds)).trans ?_
    simp only [lastUpdate]
    cases hl : lastUpdate env us with
    | some r => exact .refl _
    | none =>
      by_cases he : e = env
      · subst he; simpa using update_lock_env l e ds
      · simpa [he] using update_lock_others l e env ds (fun x => he x.symm)

/-- Every lock that the API can produce is grouped by name. -/
theorem lock_grouped (ls : List Locked) (ops : List LockOp) : Grouped (ops.foldl LockOp.run (Lock.ofList ls)) := by
  have : ∀ l, Grouped l → Grouped (ops.foldl LockOp.run l) := by
    induction ops with
    | nil => intro l h; exact h
    | cons o ops ih =>
      intro l h
      apply ih
      cases o with
      | update env ds => exact grouped_ofList _
      | unlock ns => exact grouped_unlock l ns h
  exact this _ (grouped_ofList ls)

/-- C19, package by package and in order: for every lock that the API can produce, updating one
environment changes the entries of that environment only. -/
theorem update_lock_package (ls : List Locked) (ops : List LockOp) (env other name : Text)
    (installed : List Desc) :
    lockedOf ((ops.foldl LockOp.run (Lock.ofList ls)).update env installed) name other =
      if other = env then installed.filter (fun d => d.name == name)
      else lockedOf (ops.foldl LockOp.run (Lock.ofList ls)) name other := by
  have hg := lock_grouped ls ops
  generalize ops.foldl LockOp.run (Lock.ofList ls) = l at hg ⊢
  unfold lockedOf Lock.update
  rw [get_ofList, List.filter_append, List.filter_append, List.filter_filter, List.filter_filter,
    List.map_append]
  by_cases he : other = env
  · subst he
    have h1 : List.filter (fun a : Locked => (a.envHash == other) &&
        decide (a.package.name = name) && (a.envHash != other)) l.flat = [] := by
      rw [List.filter_eq_nil_iff]; intro a ha; simp; intro h _; exact h
    rw [h1]
    simp only [List.map_nil, List.nil_append, if_true]
    induction installed with
    | nil => rfl
    | cons d ds ih =>
      by_cases hd : d.name = name <;> simp [List.filter_cons, hd, ih] <;> simpa using ih
  · have h1 : List.filter (fun a : Locked => (a.envHash == other) &&
        decide (a.package.name = name) && (a.envHash != env)) l.flat =
        List.filter (fun lk => lk.envHash == other) ((Dict.get l name).getD []) := by
      rw [← filter_flat_grouped l hg, List.filter_filter]
      apply List.filter_congr
      intro a _
      by_cases e : a.envHash = other <;> by_cases e2 : a.package.name = name <;> simp [e, he, e2]
    have h2 : List.filter (fun lp : Locked => lp.envHash == other) (List.filter
        (fun lk => decide (lk.package.name = name)) (installed.map (fun d => (⟨env, d⟩ : Locked)))) = [] := by
      rw [List.filter_eq_nil_iff]; intro a ha
      obtain ⟨d, _, rfl⟩ := List.mem_map.1 (List.mem_filter.1 ha).1
      simpa using fun h => he (Eq.symm h)
    simp only [h1, h2, List.map_nil, List.append_nil, if_neg he]

/-- C19: `unlock_packages` removes the entries of the named packages and keeps all others. -/
theorem unlock_packages_spec (l : Lock) (names : List Text) (name env : Text) :
    lockedOf (l.unlock names) name env = if name ∈ names then [] else lockedOf l name env := by
  unfold lockedOf Lock.unlock
  have : ∀ (ns : List Text) (l : Lock), Dict.get (ns.foldl Dict.del l) name =
      if name ∈ ns then none else Dict.get l name := by
    intro ns
    induction ns with
    | nil => intro l; simp
    | cons n ns ih =>
      intro l
      rw [List.foldl_cons, ih, Dict.get_del]
      by_cases h1 : name ∈ ns
      · simp [h1]
      · by_cases h2 : n = name
        · subst h2; simp
        · have : ¬ name = n := fun x => h2 x.symm
          simp [h1, h2, this]
  rw [this]
  split <;> simp

section
private def v1 : Ver := .std { release := [1] }
private def v2 : Ver := .std { release := [2] }
private def pA (v : Ver) : Desc := ⟨['a'], v⟩
private def pB (v : Ver) : Desc := ⟨['b'], v⟩
private def e1 : Text := ['x']
private def e2 : Text := ['y']

/-- Two environments update one lock in turn. -/
example :
    let l := [(e1, [pA v1, pB v1]), (e2, [pB v2]), (e1, [pB v2])].foldl (fun l u => Lock.update l u.1 u.2) []
    lockedFor l e1 = [pB v2] ∧ lockedFor l e2 = [pB v2] ∧ lockedOf l ['a'] e1 = [] := by decide

/-! ## C20 -/

/-- `x` and `y` are one element of a Python set. -/
def sameElement (x y : Ver) : Bool := decide (x.hashKey = y.hashKey) && x.eqv y

theorem ver_eqv_trans (a b c : Ver) (h1 : a.eqv b = true) (h2 : b.eqv c = true) : a.eqv c = true := by
  cases a with
  | std a =>
    cases b with
    | std b =>
      cases c with
      | std c => exact SV.eqv_stage.trans a b c h1 h2
      | named n => simp [Ver.eqv] at h2
      | url u p s => simp [Ver.eqv] at h2
    | named n => simp [Ver.eqv] at h1
    | url u p s => simp [Ver.eqv] at h1
  | named n =>
    cases b with
    | named m =>
      cases c with
      | named k => simp [Ver.eqv] at *; rw [h1, h2]
      | std c => simp [Ver.eqv] at h2
      | url u p s => simp [Ver.eqv] at h2
    | std b => simp [Ver.eqv] at h1
    | url u p s => simp [Ver.eqv] at h1
  | url u p s =>
    cases b with
    | url u2 p2 s2 =>
      cases c with
      | url u3 p3 s3 => simp [Ver.eqv] at *; exact ⟨h1.1.trans h2.1, h1.2.trans h2.2⟩
      | std c => simp [Ver.eqv] at h2
      | named n => simp [Ver.eqv] at h2
    | std b => simp [Ver.eqv] at h1
    | named n => simp [Ver.eqv] at h1

theorem memSet_iff_same (w : Ver) (s : List Ver) :
    VSpec.memSet w s = true ↔ ∃ v ∈ s, sameElement v w = true := by
  simp [VSpec.memSet, sameElement]

theorem memSet_addSet (s : List Ver) (v w : Ver) :
    VSpec.memSet w (VSpec.addSet s v) = (VSpec.memSet w s || sameElement v w) := by
  unfold VSpec.addSet
  split
  · rename_i h
    rw [Bool.eq_iff_iff, Bool.or_eq_true]
    constructor
    · exact Or.inl
    · rintro (h' | h')
      · exact h'
      · rw [memSet_iff_same] at h ⊢
        obtain ⟨x, hx, he⟩ := h
        refine ⟨x, hx, ?_⟩
        simp only [sameElement, Bool.and_eq_true, decide_eq_true_eq] at *
        exact ⟨he.1.trans h'.1, ver_eqv_trans _ _ _ he.2 h'.2⟩
  · simp [VSpec.memSet, sameElement]

theorem memSet_ofList (vs : List Ver) (w : Ver) :
    VSpec.memSet w (VSpec.unionSet [] vs) = VSpec.memSet w vs := by
  have : ∀ (vs s : List Ver), VSpec.memSet w (VSpec.unionSet s vs) = (VSpec.memSet w s || VSpec.memSet w vs) := by
    intro vs
    induction vs with
    | nil => intro s; simp [VSpec.unionSet, VSpec.memSet]
    | cons v vs ih =>
      intro s
      have e : VSpec.unionSet s (v :: vs) = VSpec.unionSet (VSpec.addSet s v) vs := rfl
      rw [e, ih, memSet_addSet]
      simp [VSpec.memSet, sameElement, Bool.or_assoc]
  rw [this]; rfl

/-- Whether a candidate is locked: its version is (as a set element) one of the versions that
`locked_versions` reports for the name of the first candidate. -/
def isLocked (l : Lock) (env : Text) (packages : List Desc) (p : Desc) : Prop :=
  ∃ q, packages.head? = some q ∧ ∃ d ∈ l.lockedVersions env q.name,
    d.version.hashKey = p.version.hashKey ∧ d.version.eqv p.version = true

/-- C20: the result is the locked candidates followed by the others, each group in its order. -/
theorem sort_by_lock_preference (l : Lock) (env : Text) (packages : List Desc) :
    ∃ p : Desc → Bool, (∀ d, p d = true ↔ isLocked l env packages d) ∧
      l.sortByPreference env packages = packages.filter p ++ packages.filter (fun d => !p d) := by
  cases packages with
  | nil => exact ⟨fun _ => false, by simp [isLocked], rfl⟩
  | cons q qs =>
    generalize hlv : l.lockedVersions env q.name = lv
    refine ⟨fun d => VSpec.memSet d.version (lv.map (·.version)), ?_, ?_⟩
    · intro d
      simp [isLocked, hlv, VSpec.memSet]
    · unfold Lock.sortByPreference
      simp only [hlv, memSet_ofList]
      generalize q :: qs = ps
      generalize hp : (fun d : Desc => VSpec.memSet d.version (lv.map (·.version))) = p
      have hle : (fun a b : Desc => decide ((if VSpec.memSet a.version (lv.map (·.version)) = true then 0 else 1) ≤
          (if VSpec.memSet b.version (lv.map (·.version)) = true then 0 else 1))) =
          (fun a b => p a || !p b) := by
        subst hp
        funext a b
        dsimp only
        cases VSpec.memSet a.version (lv.map (·.version)) <;>
          cases VSpec.memSet b.version (lv.map (·.version)) <;> rfl
      rw [hle]
      have hnp : (fun d : Desc => !VSpec.memSet d.version (lv.map (·.version))) = fun d => !p d := by
        subst hp; rfl
      rw [hnp]
      clear hnp hle hp
      induction ps with
      | nil => rfl
      | cons x xs ih =>
        simp only [sortBy, ih]
        cases hx : p x with
        | true =>
          rw [insertBy_of_all]
          · simp [hx]
          · intro y _; simp [hx]
        | false =>
          have : ∀ a b : List Desc, (∀ y ∈ a, p y = true) → (∀ y ∈ b, p y = false) →
              insertBy (fun a b => p a || !p b) x (a ++ b) = a ++ x :: b := by
            intro a b ha hb
            induction a with
            | nil => exact insertBy_of_all _ _ _ (fun y hy => by simp [hb y hy])
            | cons c cs ihc =>
              simp only [List.cons_append, insertBy]
              rw [if_neg (by simp [hx, ha c (by simp)]), ihc (fun y hy => ha y (by simp [hy]))]
          rw [this _ _ (fun y hy => (List.mem_filter.1 hy).2)
            (fun y hy => by simpa using (List.mem_filter.1 hy).2)]
          simp [List.filter_cons, hx]

/-- C20: nothing is lost or duplicated. -/
theorem sort_by_lock_preference_perm (l : Lock) (env : Text) (packages : List Desc) :
    (l.sortByPreference env packages).Perm packages := by
  cases packages with
  | nil => exact .refl _
  | cons q qs => exact sortBy_perm _ _

/-- C20: what `locked_versions` reports for a package: the first lock of this environment, if any, then
the locks of all other environments. -/
theorem locked_versions_spec (l : Lock) (env name : Text) (hn : name ≠ []) :
    l.lockedVersions env name = (lockedOf l name env).take 1 ++
      (((Dict.get l name).getD []).filter (fun lk => lk.envHash != env)).map (·.package) := by
  have hne : name.isEmpty = false := by simpa using hn
  unfold Lock.lockedVersions lockedOf
  simp only [hne, Bool.false_eq_true, if_false]
  generalize (Dict.get l name).getD [] = rs
  have hlen : (rs.filter (fun lk => lk.envHash != env)).length + (rs.filter (fun lk => lk.envHash == env)).length
      = rs.length := by
    induction rs with
    | nil => rfl
    | cons r rs ih => by_cases h : r.envHash = env <;> simp [List.filter_cons, h] <;> omega
  have hfind : rs.find? (fun lk => lk.envHash == env) = (rs.filter (fun lk => lk.envHash == env)).head? := by
    rw [List.head?_filter]
  cases rs with
  | nil => simp
  | cons r rs =>
    generalize r :: rs = rs at hlen hfind ⊢
    simp only [List.length_map, hfind]
    generalize hf : rs.filter (fun lk => lk.envHash == env) = f at hlen
    cases f with
    | nil =>
      simp at hlen
      by_cases hr : rs = []
      · subst hr; simp
      · simp [hlen, hr]
    | cons x xs =>
      have hne : (rs.filter (fun lk => lk.envHash != env)).length ≠ rs.length := by
        simp at hlen; omega
      have hr : rs ≠ [] := by intro h; subst h; simp at hf
      simp [hne, hr]

/-- Candidates 2 and 1, version 1 is locked. -/
example :
    let l := Lock.ofList [⟨e2, pA v2⟩, ⟨e1, pA v1⟩]
    l.lockedVersions e1 ['a'] = [pA v1, pA v2] ∧
    (Lock.ofList [⟨e1, pA v1⟩]).sortByPreference e1 [pA v2, pA v1] = [pA v1, pA v2] := by decide

/-! ## C21 -/

/-- A descriptor that survives the lock file: a standard version in normal form and a plain name (in
the form that descriptors store). -/
def Storable (d : Desc) : Prop :=
  (∃ v, d.version = .std v ∧ Printable v) ∧ PlainName d.name ∧ descriptorName d.name = some d.name

theorem desc_read_write (env : UrlEnv) (d : Desc) (h : Storable d) : Desc.read env d.write = some d := by
  obtain ⟨⟨v, hv, hp⟩, _, hn⟩ := h
  unfold Desc.read Desc.write Desc.make
  simp only [hn, hv, Ver.show, version_text_round_trip env v hp, Option.map_some]
  rw [← hv]

theorem load_save_entries (env : UrlEnv) (ls : List Locked) (h : ∀ lk ∈ ls, Storable lk.package) :
    (ls.map (fun lp => (lp.envHash, lp.package.write))).mapM
      (fun e => (Desc.read env e.2).map (fun d => (⟨e.1, d⟩ : Locked))) = some ls := by
  induction ls with
  | nil => rfl
  | cons x xs ih =>
    simp only [List.map_cons, List.mapM_cons, desc_read_write env x.package (h x (by simp)), Option.map_some]
    rw [ih (fun lk hlk => h lk (by simp [hlk]))]
    rfl

/-- C21, for standard versions and plain names: loading what was saved gives a lock with the same
entries for every package and environment, in the same order. Missing: URL and other versions, and names
with runs of separators (`lock_file_violated`). -/
theorem lock_file_round_trip_partial (env : UrlEnv) (ls : List Locked) (ops : List LockOp)
    (h : ∀ lk ∈ Lock.flat (ops.foldl LockOp.run (Lock.ofList ls)), Storable lk.package) :
    ∃ l', Lock.load env (Lock.save (ops.foldl LockOp.run (Lock.ofList ls))) = some l' ∧
      (∀ name, (Dict.get l' name).getD [] = (Dict.get (ops.foldl LockOp.run (Lock.ofList ls)) name).getD []) ∧
      ∀ e name, name ≠ [] → l'.lockedVersions e name =
        (ops.foldl LockOp.run (Lock.ofList ls)).lockedVersions e name := by
  have hg := lock_grouped ls ops
  generalize ops.foldl LockOp.run (Lock.ofList ls) = l at hg h ⊢
  have hget : ∀ name, (Dict.get (Lock.ofList l.flat) name).getD [] = (Dict.get l name).getD [] := by
    intro name; rw [get_ofList, filter_flat_grouped l hg]
  refine ⟨Lock.ofList l.flat, ?_, hget, ?_⟩
  · unfold Lock.load Lock.save
    rw [load_save_entries env _ h]; rfl
  · intro e name hn
    rw [locked_versions_spec _ _ _ hn, locked_versions_spec _ _ _ hn]
    unfold lockedOf
    rw [hget]

/-- The hypothesis is met by a lock of two environments. -/
example : ∀ lk ∈ Lock.flat ([LockOp.update e1 [pA v1, pB v2], .update e2 [pB v1]].foldl LockOp.run
    (Lock.ofList [])), Storable lk.package := by
  have key : ∀ lk ∈ Lock.flat ([LockOp.update e1 [pA v1, pB v2], .update e2 [pB v1]].foldl LockOp.run
      (Lock.ofList [])), (lk.package.name = ['a'] ∨ lk.package.name = ['b']) ∧
      (lk.package.version = v1 ∨ lk.package.version = v2) := by decide
  intro lk hlk
  obtain ⟨h1, h2⟩ := key lk hlk
  refine ⟨?_, ?_⟩
  · rcases h2 with h2 | h2
    · exact ⟨{ release := [1] }, h2, by simp, by simp, by simp⟩
    · exact ⟨{ release := [2] }, h2, by simp, by simp, by simp⟩
  · rcases h1 with h1 | h1 <;> rw [h1] <;>
      exact ⟨⟨⟨_, _, rfl, by decide⟩, by simp [SepsIsolated]; decide⟩, by decide⟩

/-- C21 fails for a package whose name has a separator run: it is stored as `a--b` and read back as
`a-b`, so its lock is not found any more. -/
theorem lock_file_violated (env : UrlEnv) : ∃ d, Desc.make "a_-b".toList v1 = some d ∧
    ∃ l', Lock.load env (Lock.save (Lock.ofList [⟨e1, d⟩])) = some l' ∧
      (Lock.ofList [⟨e1, d⟩]).lockedVersions e1 d.name = [d] ∧ l'.lockedVersions e1 d.name = [] := by
  refine ⟨⟨"a--b".toList, v1⟩, by decide, Lock.ofList [⟨e1, ⟨"a-b".toList, v1⟩⟩], ?_, by decide, by decide⟩
  have h := version_text_round_trip env { release := [1] } ⟨by simp, by simp, by simp⟩
  unfold Lock.load Lock.save
  have hs : Lock.flat (Lock.ofList [⟨e1, ⟨"a--b".toList, v1⟩⟩]) = [⟨e1, ⟨"a--b".toList, v1⟩⟩] := by decide
  rw [hs]
  have hr : Desc.read env (Desc.write ⟨"a--b".toList, v1⟩) = some ⟨"a-b".toList, v1⟩ := by
    unfold Desc.read Desc.write Desc.make
    have : descriptorName "a--b".toList = some "a-b".toList := by decide
    have hv : parseVersion env v1.show = v1 := h
    simp only [this, hv]; rfl
  simp only [List.map_cons, List.map_nil, List.mapM_cons, List.mapM_nil, hr]
  rfl

end
end Pkm
