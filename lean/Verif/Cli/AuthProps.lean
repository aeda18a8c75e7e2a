import Verif.Cli.Auth
import Verif.Tags.Model
/-
Property C75: the store of publishing credentials.
-/
set_option linter.unusedVariables false
set_option linter.unusedSimpArgs false

namespace Pkm
namespace Spec
open Auth

/-- What a user who knows the password does to the store. -/
inductive AuthOp where
  | add (name : Text) (args : Args)
  | remove (name : Text)
  /-- another run of the program: a new store object, unlocked with the password -/
  | reopen

/-- The credentials of a repository after these operations, the latest operation first. -/
def credentials : List AuthOp → Text → Option Args
  | [], _ => none
  | .add m a :: before, n => if m = n then some a else credentials before n
  | .remove m :: before, n => if m = n then none else credentials before n
  | .reopen :: before, n => credentials before n

end Spec

namespace Auth
open Spec

/-- One operation with the password `p`, whether it raises or not. -/
def stepOp (p : Text) (x : Store × World) : AuthOp → Store × World
  | .add n a => let r := addAuthArgs x.1 x.2 n a; (r.1, r.2.1)
  | .remove n => let r := rmAuthArgs x.1 x.2 n; (r.1, r.2.1)
  | .reopen => let r := unlock {} x.2 (some p); (r.1, r.2.1)

/-- The operations in their order, oldest first. -/
def runOps (p : Text) (x : Store × World) (ops : List AuthOp) : Store × World := ops.foldl (stepOp p) x

/-- The store is unlocked and the file has its contents. -/
def InStep (p : Text) (x : Store × World) (f : Text → Option Args) : Prop :=
  ∃ c : Conf, x.1 = ⟨some p, some c⟩ ∧ (x.2.file = some (.sealed p c) ∨ (x.2.file = none ∧ c = [])) ∧
    ∀ n, Dict.get c n = f n

theorem given_some {p : Text} (hp : p ≠ []) : given (some p) = some p := by
  cases p with
  | nil => exact absurd rfl hp
  | cons c cs => rfl

theorem unlock_in_step (p : Text) (hp : p ≠ []) (s : Store) (w : World) (c : Conf)
    (hw : w.file = some (.sealed p c) ∨ (w.file = none ∧ c = [])) :
    unlock s w (some p) = (⟨some p, some c⟩, w, none) := by
  obtain ⟨f, as⟩ := w
  dsimp only at hw
  rcases hw with rfl | ⟨rfl, rfl⟩
  · simp [unlock, oldPassword, given_some hp, openBlob]
  · simp [unlock, newPassword, given_some hp]

theorem step_in_step (p : Text) (hp : p ≠ []) (x : Store × World) (before : List AuthOp) (op : AuthOp)
    (h : InStep p x (credentials before)) : InStep p (stepOp p x op) (credentials (op :: before)) := by
  obtain ⟨s, w⟩ := x
  obtain ⟨c, rfl, hw, hg⟩ := h
  dsimp only at hw
  cases op with
  | add n a =>
    refine ⟨Dict.put c n a, ?_, ?_, ?_⟩
    · simp [stepOp, addAuthArgs, ensure]
    · left; simp [stepOp, addAuthArgs, ensure, save]
    · intro m
      rw [Dict.get_put, hg]
      rfl
  | remove n =>
    by_cases hn : (Dict.get c n).isSome = true
    · refine ⟨Dict.del c n, ?_, ?_, ?_⟩
      · simp [stepOp, rmAuthArgs, ensure, hn]
      · left; simp [stepOp, rmAuthArgs, ensure, hn, save]
      · intro m
        rw [Dict.get_del, hg]
        rfl
    · have hn' : Dict.get c n = none := by simpa using hn
      refine ⟨c, ?_, ?_, ?_⟩
      · simp [stepOp, rmAuthArgs, ensure, hn']
      · simpa [stepOp, rmAuthArgs, ensure, hn'] using hw
      · intro m
        simp only [credentials]
        split
        · rename_i e; subst e; exact hn'
        · exact hg m
  | reopen =>
    have := unlock_in_step p hp {} w c hw
    refine ⟨c, ?_, ?_, hg⟩
    · simp [stepOp, this]
    · simpa [stepOp, this] using hw

theorem run_in_step (p : Text) (hp : p ≠ []) (ops : List AuthOp) : ∀ (x : Store × World) (before : List AuthOp),
    InStep p x (credentials before) → InStep p (runOps p x ops) (credentials (ops.reverse ++ before)) := by
  induction ops with
  | nil => intro x before h; exact h
  | cons op ops ih =>
    intro x before h
    have := ih _ _ (step_in_step p hp x before op h)
    simpa [runOps] using this

/-- C75: after any sequence of additions, removals and restarts by a user who knows the password, starting without a
file, whoever opens the store with that password finds for every repository the credentials added last, unless
removed since. -/
theorem auth_history (p : Text) (hp : p ≠ []) (ops : List AuthOp) (answers : List Text) (n : Text) :
    ∃ s w, unlock {} (runOps p ({}, ⟨none, answers⟩) (.reopen :: ops)).2 (some p) = (s, w, none) ∧
      ∃ s' w', authArgsFor s w n = (s', w', .ok (credentials ops.reverse n)) := by
  have h1 : InStep p (stepOp p ({}, ⟨none, answers⟩) .reopen) (credentials []) := by
    have := unlock_in_step p hp {} ⟨none, answers⟩ [] (Or.inr ⟨rfl, rfl⟩)
    refine ⟨[], ?_, ?_, fun n => rfl⟩
    · simp [stepOp, this]
    · simp [stepOp, this]
  have h2 := run_in_step p hp ops _ [] h1
  rw [List.append_nil] at h2
  have he : runOps p ({}, ⟨none, answers⟩) (.reopen :: ops) = runOps p (stepOp p ({}, ⟨none, answers⟩) .reopen) ops := rfl
  rw [he]
  obtain ⟨c, _, hw, hg⟩ := h2
  refine ⟨_, _, unlock_in_step p hp {} _ c hw, ⟨some p, some c⟩,
    (runOps p (stepOp p ({}, ⟨none, answers⟩) .reopen) ops).2, ?_⟩
  simp [authArgsFor, ensure, hg]

example : credentials [.remove t!"a", .reopen, .add t!"b" [(t!"user", t!"u")], .add t!"a" []] t!"b" =
    some [(t!"user", t!"u")] := by decide

/-- C75: the password of a new store was typed twice in a row, after pairs that differ. -/
theorem auth_typed_twice (s s' : Store) (answers : List Text) (w' : World) (h : unlock s ⟨none, answers⟩ none = (s', w', none)) :
    ∃ (p : Text) (pairs : List (Text × Text)), s'.cipher = some p ∧ answers = pairs.flatMap (fun x => [x.1, x.2]) ++ p :: p :: w'.answers ∧ ∀ x ∈ pairs, x.1 ≠ x.2 := by
  have key : ∀ (k : Nat) (l : List Text) (p : Text) (rest : List Text), l.length ≤ k → firstPassword l = some (p, rest) →
      ∃ pairs : List (Text × Text), l = pairs.flatMap (fun x => [x.1, x.2]) ++ p :: p :: rest ∧ ∀ x ∈ pairs, x.1 ≠ x.2 := by
    intro k
    induction k with
    | zero =>
      intro l p rest hl hf
      have : l = [] := List.eq_nil_of_length_eq_zero (by omega)
      subst this; simp [firstPassword] at hf
    | succ k ih =>
      intro l p rest hl hf
      match l, hf with
      | a :: b :: l, hf =>
        simp only [firstPassword] at hf
        split at hf
        · rename_i hab
          injection hf with hf
          injection hf with h1 h2
          subst h1; subst h2; subst hab
          exact ⟨[], by simp, by simp⟩
        · rename_i hab
          obtain ⟨pairs, h1, h2⟩ := ih l p rest (by simp at hl; omega) hf
          refine ⟨(a, b) :: pairs, by simp [h1], ?_⟩
          intro x hx
          simp only [List.mem_cons] at hx
          rcases hx with rfl | hx
          · exact hab
          · exact h2 x hx
  simp only [unlock, newPassword, given] at h
  cases hf : firstPassword answers with
  | none => simp [hf] at h
  | some r =>
    obtain ⟨p, rest⟩ := r
    simp only [hf, Prod.mk.injEq, and_true] at h
    obtain ⟨pairs, h1, h2⟩ := key _ answers p rest (Nat.le_refl _) hf
    refine ⟨p, pairs, by rw [← h.1], by rw [← h.2]; exact h1, h2⟩

example : unlock {} ⟨none, [t!"a", t!"b", t!"c", t!"c", t!"d"]⟩ none = (⟨some t!"c", some []⟩, ⟨none, [t!"d"]⟩, none) := by decide

/-- C75: nobody gets in with another password, and trying does not touch the file. -/
theorem auth_wrong_password (p q : Text) (c : Conf) (s : Store) (answers : List Text) (hq : q ≠ []) (hne : q ≠ p) :
    ∃ s', unlock s ⟨some (.sealed p c), answers⟩ (some q) = (s', ⟨some (.sealed p c), answers⟩, some .wrongPassword) := by
  simp [unlock, oldPassword, given_some hq, openBlob, hne]

/-- C75: a store that was never opened with the right password gives nothing and changes nothing: its calls all raise. -/
theorem auth_locked_out (q : Text) (w : World) (n : Text) (a : Args) :
    authArgsFor ⟨some q, none⟩ w n = (⟨some q, none⟩, w, .error .noConfiguration) ∧
    addAuthArgs ⟨some q, none⟩ w n a = (⟨some q, none⟩, w, some .noConfiguration) ∧
    rmAuthArgs ⟨some q, none⟩ w n = (⟨some q, none⟩, w, some .noConfiguration) := by
  simp [authArgsFor, addAuthArgs, rmAuthArgs, ensure]

/-- C75 fails: a mistyped password locks the store object for good: it counts as unlocked, the user is not asked again
and all its calls raise, although the user would now give the right password. -/
theorem auth_mistyped_violated (p q : Text) (c : Conf) (answers : List Text) (hne : q ≠ p) (n : Text) :
    ∃ s w, authArgsFor {} ⟨some (.sealed p c), q :: answers⟩ n = (s, w, .error .wrongPassword) ∧
      ∀ w' m, authArgsFor s w' m = (s, w', .error .noConfiguration) := by
  refine ⟨⟨some q, none⟩, ⟨some (.sealed p c), answers⟩, ?_, fun w' m => (auth_locked_out q w' m []).1⟩
  simp [authArgsFor, ensure, unlock, oldPassword, given, openBlob, hne]

/-- C75 fails: unlocking an open store again with a mistyped password raises, but the next addition seals all
credentials with the mistyped password: the right one does not open the file any more. -/
theorem auth_rekey_violated (p q : Text) (c : Conf) (answers : List Text) (hp : p ≠ []) (hq : q ≠ []) (hne : q ≠ p)
    (n : Text) (a : Args) :
    ∃ s w, unlock ⟨some p, some c⟩ ⟨some (.sealed p c), answers⟩ (some q) = (s, w, some .wrongPassword) ∧
      ∃ s' w', addAuthArgs s w n a = (s', w', none) ∧ w'.file = some (.sealed q (Dict.put c n a)) ∧
        ∀ s'', ∃ s3 w3, unlock s'' w' (some p) = (s3, w3, some .wrongPassword) := by
  refine ⟨⟨some q, some c⟩, ⟨some (.sealed p c), answers⟩, ?_, ⟨some q, some (Dict.put c n a)⟩,
    ⟨some (.sealed q (Dict.put c n a)), answers⟩, ?_, rfl, ?_⟩
  · simp [unlock, oldPassword, given_some hq, openBlob, hne]
  · simp [addAuthArgs, ensure, save]
  · intro s''
    simp [unlock, oldPassword, given_some hp, openBlob, Ne.symm hne]

/-- C75 fails: of two programs that opened the store at the same time, the one that saves last removes what the other
has added. -/
theorem auth_lost_update_violated (p : Text) (c : Conf) (answers : List Text) (x y : Text) (a b : Args)
    (hxy : x ≠ y) (hx : Dict.get c x = none) :
    ∃ s1 w1 s2 w2, addAuthArgs ⟨some p, some c⟩ ⟨some (.sealed p c), answers⟩ x a = (s1, w1, none) ∧
      addAuthArgs ⟨some p, some c⟩ w1 y b = (s2, w2, none) ∧
      ∃ c', w2.file = some (.sealed p c') ∧ Dict.get c' x = none := by
  refine ⟨⟨some p, some (Dict.put c x a)⟩, ⟨some (.sealed p (Dict.put c x a)), answers⟩,
    ⟨some p, some (Dict.put c y b)⟩, ⟨some (.sealed p (Dict.put c y b)), answers⟩, ?_, ?_, _, rfl, ?_⟩
  · simp [addAuthArgs, ensure, save]
  · simp [addAuthArgs, ensure, save]
  · rw [Dict.get_put, if_neg (fun e => hxy e.symm), hx]

/-- C75 fails: a crash while the file is being written can lose all credentials: no password opens what is left. -/
theorem auth_crash_violated (p : Text) (c : Conf) (answers : List Text) (n : Text) (a : Args) :
    ∃ w ∈ crashesOf ⟨some (.sealed p c), answers⟩ (addAuthArgs ⟨some p, some c⟩ ⟨some (.sealed p c), answers⟩ n a).2.1,
      ∀ s q, q ≠ [] → ∃ s' w', unlock s w (some q) = (s', w', some .wrongPassword) := by
  refine ⟨⟨some .junk, answers⟩, by simp [crashesOf], ?_⟩
  intro s q hq
  simp [unlock, oldPassword, given_some hq, openBlob]

/-! ### publishing -/

theorem request_spec (extras : Args) (params : List Text) : ∀ acc answers args asked rest,
    requestParams extras acc params answers = some (args, asked, rest) →
      asked = params.filter (fun n => ((Dict.get extras n).getD []).isEmpty) ∧
      (∀ n, (Dict.get args n).isSome = true ↔ n ∈ params ∨ (Dict.get acc n).isSome = true) ∧
      (∀ n ∈ params, ∀ v, Dict.get extras n = some v → v ≠ [] → Dict.get args n = some v) ∧
      ∀ n, n ∉ params → Dict.get args n = Dict.get acc n := by
  induction params with
  | nil =>
    intro acc answers args asked rest h
    simp only [requestParams, Option.some.injEq, Prod.mk.injEq] at h
    obtain ⟨rfl, rfl, rfl⟩ := h
    simp
  | cons name names ih =>
    intro acc answers args asked rest h
    simp only [requestParams] at h
    have key : ∀ v args, ((∀ n, (Dict.get args n).isSome = true ↔ n ∈ names ∨ (Dict.get (Dict.put acc name v) n).isSome = true) →
        ∀ n, (Dict.get args n).isSome = true ↔ n ∈ name :: names ∨ (Dict.get acc n).isSome = true) ∧
        ((∀ n, n ∉ names → Dict.get args n = Dict.get (Dict.put acc name v) n) →
          ∀ n, n ∉ name :: names → Dict.get args n = Dict.get acc n) := by
      intro v args
      constructor
      · intro hh n
        rw [hh, Dict.get_put]
        by_cases e : name = n
        · simp [e]
        · rw [if_neg e, List.mem_cons]
          constructor
          · rintro (h | h)
            · exact Or.inl (Or.inr h)
            · exact Or.inr h
          · rintro ((h | h) | h)
            · exact absurd h.symm e
            · exact Or.inl h
            · exact Or.inr h
      · intro hh n hn
        simp only [List.mem_cons, not_or] at hn
        rw [hh n hn.2, Dict.get_put, if_neg (fun e => hn.1 e.symm)]
    cases hv : (Dict.get extras name).getD [] with
    | nil =>
      rw [hv] at h
      simp only at h
      cases answers with
      | nil => cases h
      | cons a answers =>
        simp only at h
        cases hr : requestParams extras (Dict.put acc name a) names answers with
        | none => rw [hr] at h; cases h
        | some r =>
          obtain ⟨args', asked', rest'⟩ := r
          rw [hr] at h
          simp only [Option.some.injEq, Prod.mk.injEq] at h
          obtain ⟨rfl, rfl, rfl⟩ := h
          obtain ⟨h1, h2, h3, h4⟩ := ih _ _ _ _ _ hr
          refine ⟨by simp [hv, h1], (key a _).1 h2, ?_, (key a _).2 h4⟩
          intro n hn v he hne
          by_cases hm : n ∈ names
          · exact h3 n hm v he hne
          · rcases List.mem_cons.1 hn with rfl | hn
            · rw [he] at hv; exact absurd hv hne
            · exact absurd hn hm
    | cons v vs =>
      rw [hv] at h
      simp only at h
      obtain ⟨h1, h2, h3, h4⟩ := ih _ _ _ _ _ h
      refine ⟨by simp [hv, h1], (key _ _).1 h2, ?_, (key _ _).2 h4⟩
      intro n hn v' he hne
      by_cases hm : n ∈ names
      · exact h3 n hm v' he hne
      · rcases List.mem_cons.1 hn with rfl | hn
        · rw [h4 _ hm, Dict.get_put, if_pos rfl]
          rw [he] at hv
          simp only [Option.getD_some] at hv
          rw [hv]
        · exact absurd hn hm

/-- C75: the user is asked for exactly the parameters that the command line leaves out, in their order; the repository
gets a value for every parameter and for nothing else, and that of the command line where there is one. -/
theorem publish_asks (accepts : Args → Bool) (params : List Text) (repo : Text) (extras : Args) (saveIt : Bool)
    (w w' : World) (e : Option AErr) (args : Args) (asked : List Text)
    (h : publish accepts params repo extras saveIt w = (w', e, some (args, asked))) :
    asked = params.filter (fun n => ((Dict.get extras n).getD []).isEmpty) ∧
      (∀ n, (Dict.get args n).isSome = true ↔ n ∈ params) ∧
      ∀ n ∈ params, ∀ v, Dict.get extras n = some v → v ≠ [] → Dict.get args n = some v := by
  simp only [publish] at h
  split at h
  · simp at h
  · rename_i args' asked' rest hr
    have hx : (args', asked') = (args, asked) := by
      split at h
      · split at h
        · simp only [Prod.mk.injEq, Option.some.injEq] at h
          rw [h.2.2.1, h.2.2.2]
        · simp only [Prod.mk.injEq, Option.some.injEq] at h
          rw [h.2.2.1, h.2.2.2]
      · simp only [Prod.mk.injEq, Option.some.injEq] at h
        rw [h.2.2.1, h.2.2.2]
    cases hx
    obtain ⟨h1, h2, h3, _⟩ := request_spec extras params [] w.answers _ _ _ hr
    exact ⟨h1, fun n => by simpa [Dict.get] using h2 n, h3⟩

/-- C75: nothing is saved unless the repository has accepted the credentials and saving was asked for. -/
theorem publish_saves_only (accepts : Args → Bool) (params : List Text) (repo : Text) (extras : Args) (saveIt : Bool)
    (w w' : World) (e : Option AErr) (r : Option (Args × List Text))
    (h : publish accepts params repo extras saveIt w = (w', e, r)) (hf : w'.file ≠ w.file) :
    saveIt = true ∧ ∃ args asked, r = some (args, asked) ∧ accepts args = true := by
  simp only [publish] at h
  split at h
  · simp only [Prod.mk.injEq] at h
    rw [← h.1] at hf; exact absurd rfl hf
  · rename_i args asked rest hr
    split at h
    · rename_i ha
      split at h
      · rename_i hs
        simp only [Prod.mk.injEq] at h
        exact ⟨hs, args, asked, h.2.2.symm, ha⟩
      · simp only [Prod.mk.injEq] at h
        rw [← h.1] at hf; exact absurd rfl hf
    · simp only [Prod.mk.injEq] at h
      rw [← h.1] at hf; exact absurd rfl hf

/-- C75: credentials that are saved are those the repository has accepted, under its name, if the user gives the
password of the store. -/
theorem publish_saves (accepts : Args → Bool) (params : List Text) (repo : Text) (extras args : Args)
    (answers typed rest : List Text) (asked : List Text) (p : Text) (c : Conf)
    (hr : requestParams extras [] params answers = some (args, asked, p :: rest)) (ha : accepts args = true) :
    publish accepts params repo extras true ⟨some (.sealed p c), answers⟩ =
      (⟨some (.sealed p (Dict.put c repo args)), rest⟩, none, some (args, asked)) := by
  simp [publish, hr, ha, addAuthArgs, ensure, unlock, oldPassword, given, openBlob, save]

/-- C75 fails: saved credentials are never used. Whatever the store contains, the user is asked for every parameter
that is not on the command line, and the repository gets what the user types. -/
theorem publish_ignores_saved_violated (accepts : Args → Bool) (params : List Text) (repo : Text) (extras : Args)
    (f g : Option Blob) (answers : List Text) :
    (publish accepts params repo extras false ⟨f, answers⟩).2 = (publish accepts params repo extras false ⟨g, answers⟩).2 := by
  simp only [publish]
  split
  · rfl
  · split <;> rfl

/-- The credentials of `pypi` are saved; the next time the user is asked for both again. -/
example :
    publish (fun _ => true) [t!"username", t!"password"] t!"pypi" [] false
      ⟨some (.sealed t!"pw" [(t!"pypi", [(t!"password", t!"s"), (t!"username", t!"u")])]), [t!"x", t!"y"]⟩ =
    (⟨some (.sealed t!"pw" [(t!"pypi", [(t!"password", t!"s"), (t!"username", t!"u")])]), []⟩, none,
      some ([(t!"username", t!"x"), (t!"password", t!"y")], [t!"username", t!"password"])) := by rfl

/-- Saving: the answers are the user name, the password of the repository and that of the store. -/
example : ∃ args asked, requestParams [(t!"username", t!"u")] [] [t!"username", t!"password"] [t!"s", t!"pw"] =
    some (args, asked, [t!"pw"]) ∧ asked = [t!"password"] := ⟨_, _, rfl, by decide⟩

end Auth
end Pkm
