import Verif.Packages.Asked
set_option linter.unusedVariables false
set_option linter.unusedSimpArgs false
set_option linter.unusedSectionVars false
/-
C104: what a package says of its dependencies does not depend on what it was asked before, or is asked at the same time.
-/
namespace Pkm
variable {A E F D X : Type} [DecidableEq A]
namespace Spec
open Asked

/-- A right reply to the question `q`: that the environment is not supported if no artifact is for it; else the dependencies that apply of those that a
retrieved file of the best artifact says, read for an environment that has the same best artifact; or a failure if retrieving or reading fails. -/
inductive RightReply (P : Pack A E F D X) (q : E × X) : Reply D → Prop where
  | unsupported (h : P.best q.1 = none) : RightReply P q .unsupported
  | notRetrieved (a : A) (n : Nat) (h : P.best q.1 = some a) (hf : P.fetch n a = none) : RightReply P q .failed
  | notRead (a : A) (n : Nat) (f : F) (h : P.best q.1 = some a) (hf : P.fetch n a = some f) (hm : P.meta a f q.1 = none) : RightReply P q .failed
  | deps (a : A) (n : Nat) (f : F) (e : E) (ds : List D) (h : P.best q.1 = some a) (he : P.best e = some a) (hf : P.fetch n a = some f)
      (hm : P.meta a f e = some ds) : RightReply P q (.deps (ds.filter (fun d => P.applies d q.1 q.2)))

/-- What a package says that was not asked before, if nothing else happens. -/
def freshReply (P : Pack A E F D X) (q : E × X) : Reply D :=
  match P.best q.1 with
  | none => .unsupported
  | some a =>
    match P.fetch 0 a with
    | none => .failed
    | some f =>
      match P.meta a f q.1 with
      | none => .failed
      | some ds => .deps (ds.filter (fun d => P.applies d q.1 q.2))

/-- Every retrieval of an artifact gives the same. -/
def Steady (P : Pack A E F D X) : Prop := ∀ m n a, P.fetch m a = P.fetch n a

/-- The metadata of an artifact is the same for all environments; so it is for wheels. -/
def SameForAll (P : Pack A E F D X) (a : A) : Prop := P.isWheel a = true ∨ ∀ f e e', P.sourceMeta f e = P.sourceMeta f e'

/-- How often the thread has retrieved the artifact with success. -/
def retrievals (s : State A E F D X) (i : Nat) (a : A) : Nat := s.fetches.countP (fun x => decide (x.1 = i) && decide (x.2.1 = a) && x.2.2.isSome)

/-- How often the thread has read the metadata of the artifact with success. -/
def readings (s : State A E F D X) (i : Nat) (a : A) : Nat := s.extracts.countP (fun x => decide (x.1 = i) && decide (x.2.1 = a) && x.2.2.isSome)

end Spec
open Spec
namespace Asked

/-- The steps, one by one. -/
inductive Trans (P : Pack A E F D X) (s : State A E F D X) (i : Nat) (t : Asker A E F D X) (q : E × X) (rest : List (E × X)) : State A E F D X → Prop where
  | unsupported (hp : t.pc = .ready) (h : P.best q.1 = none) :
      Trans P s i t q rest { s with threads := s.threads.set i ⟨rest, .ready, t.replies ++ [(q, .unsupported)]⟩ }
  | chosen (a : A) (hp : t.pc = .ready) (h : P.best q.1 = some a) : Trans P s i t q rest { s with threads := s.threads.set i ⟨q :: rest, .lookup a, t.replies⟩ }
  | known (a : A) (d : D) (ds : List D) (hp : t.pc = .lookup a) (h : s.deps a = some (d :: ds)) :
      Trans P s i t q rest { s with threads := s.threads.set i ⟨rest, .ready, t.replies ++ [(q, P.applying q (d :: ds))]⟩ }
  | unknown (a : A) (hp : t.pc = .lookup a) (h : ∀ d ds, s.deps a ≠ some (d :: ds)) :
      Trans P s i t q rest { s with threads := s.threads.set i ⟨q :: rest, .path a, t.replies⟩ }
  | there (a : A) (f : F) (hp : t.pc = .path a) (h : s.paths a = some f) :
      Trans P s i t q rest { s with threads := s.threads.set i ⟨q :: rest, .extract a f, t.replies⟩ }
  | missing (a : A) (hp : t.pc = .path a) (h : s.paths a = none) :
      Trans P s i t q rest { s with threads := s.threads.set i ⟨q :: rest, .fetch a, t.replies⟩ }
  | fetched (a : A) (f : F) (hp : t.pc = .fetch a) (h : P.fetch s.fetches.length a = some f) :
      Trans P s i t q rest { s with threads := s.threads.set i ⟨q :: rest, .keep a f, t.replies⟩, fetches := s.fetches ++ [(i, a, some f)] }
  | notFetched (a : A) (hp : t.pc = .fetch a) (h : P.fetch s.fetches.length a = none) :
      Trans P s i t q rest { s with threads := s.threads.set i ⟨rest, .ready, t.replies ++ [(q, .failed)]⟩, fetches := s.fetches ++ [(i, a, none)] }
  | kept (a : A) (f : F) (hp : t.pc = .keep a f) :
      Trans P s i t q rest { s with paths := put s.paths a f, threads := s.threads.set i ⟨q :: rest, .extract a f, t.replies⟩ }
  | read (a : A) (f : F) (ds : List D) (hp : t.pc = .extract a f) (h : P.meta a f q.1 = some ds) :
      Trans P s i t q rest { s with threads := s.threads.set i ⟨q :: rest, .note a ds, t.replies⟩, extracts := s.extracts ++ [(i, a, some ds)] }
  | notRead (a : A) (f : F) (hp : t.pc = .extract a f) (h : P.meta a f q.1 = none) :
      Trans P s i t q rest { s with threads := s.threads.set i ⟨rest, .ready, t.replies ++ [(q, .failed)]⟩, extracts := s.extracts ++ [(i, a, none)] }
  | noted (a : A) (ds : List D) (hp : t.pc = .note a ds) :
      Trans P s i t q rest { s with deps := put s.deps a ds, threads := s.threads.set i ⟨rest, .ready, t.replies ++ [(q, P.applying q ds)]⟩ }

theorem step_trans (P : Pack A E F D X) (s : State A E F D X) (i : Nat) :
    step P s i = s ∧ (∀ t, s.threads[i]? = some t → t.todo = []) ∨
    ∃ t q rest, s.threads[i]? = some t ∧ t.todo = q :: rest ∧ Trans P s i t q rest (step P s i) := by
  unfold step
  cases ht : s.threads[i]? with
  | none => left; exact ⟨rfl, by simp⟩
  | some t =>
    obtain ⟨todo, pc, replies⟩ := t
    cases todo with
    | nil => left; exact ⟨rfl, by simp⟩
    | cons q rest =>
      right
      refine ⟨_, q, rest, rfl, rfl, ?_⟩
      dsimp only [Asker.finish]
      cases pc with
      | ready =>
        dsimp only
        cases h : P.best q.1 with
        | none => exact .unsupported rfl h
        | some a => exact .chosen a rfl h
      | lookup a =>
        dsimp only
        cases h : s.deps a with
        | none => exact .unknown a rfl (by simp [h])
        | some ds =>
          cases ds with
          | nil => exact .unknown a rfl (by simp [h])
          | cons d ds => exact .known a d ds rfl h
      | path a =>
        dsimp only
        cases h : s.paths a with
        | none => exact .missing a rfl h
        | some f => exact .there a f rfl h
      | fetch a =>
        dsimp only
        cases h : P.fetch s.fetches.length a with
        | none => exact .notFetched a rfl h
        | some f => exact .fetched a f rfl h
      | keep a f => exact .kept a f rfl
      | extract a f =>
        dsimp only
        cases h : P.meta a f q.1 with
        | none => exact .notRead a f rfl h
        | some ds => exact .read a f ds rfl h
      | note a ds => exact .noted a ds rfl

theorem set_get {T : Type} {l : List T} {i : Nat} {t : T} (h : l[i]? = some t) (v : T) (j : Nat) :
    (l.set i v)[j]? = if j = i then some v else l[j]? := by
  have hi : i < l.length := by
    rcases Nat.lt_or_ge i l.length with h' | h'
    · exact h'
    · rw [List.getElem?_eq_none h'] at h; cases h
  split
  · rename_i e; subst e; simp [hi]
  · rename_i e; rw [List.getElem?_set_ne (fun h' => e h'.symm)]

/-- What a thread knows where it is. -/
def PcOk (P : Pack A E F D X) (e : E) : At A F D → Prop
  | .ready => True
  | .lookup a | .path a | .fetch a => P.best e = some a
  | .keep a f | .extract a f => P.best e = some a ∧ ∃ n, P.fetch n a = some f
  | .note a ds => P.best e = some a ∧ ∃ n f, P.fetch n a = some f ∧ P.meta a f e = some ds

structure ThreadOk (P : Pack A E F D X) (q : List (E × X)) (t : Asker A E F D X) : Prop where
  asked : t.replies.map (·.1) ++ t.todo = q
  idle : t.todo = [] → t.pc = .ready
  pc : ∀ x rest, t.todo = x :: rest → PcOk P x.1 t.pc
  right : ∀ x r, (x, r) ∈ t.replies → RightReply P x r

structure Inv (P : Pack A E F D X) (qs : List (List (E × X))) (s : State A E F D X) : Prop where
  paths : ∀ a f, s.paths a = some f → ∃ n, P.fetch n a = some f
  deps : ∀ a ds, s.deps a = some ds → ∃ n f e, P.fetch n a = some f ∧ P.best e = some a ∧ P.meta a f e = some ds
  length : s.threads.length = qs.length
  threads : ∀ (i : Nat) (t : Asker A E F D X), s.threads[i]? = some t → ∃ q, qs[i]? = some q ∧ ThreadOk P q t

theorem ThreadOk.advance {P : Pack A E F D X} {q : List (E × X)} {t : Asker A E F D X} (h : ThreadOk P q t) {x : E × X} {rest : List (E × X)}
    (ht : t.todo = x :: rest) {pc : At A F D} (hp : PcOk P x.1 pc) : ThreadOk P q ⟨x :: rest, pc, t.replies⟩ :=
  ⟨by rw [← ht]; exact h.asked, by simp, by rintro y r hy; simp at hy; rw [← hy.1]; exact hp, h.right⟩

theorem ThreadOk.answer {P : Pack A E F D X} {q : List (E × X)} {t : Asker A E F D X} (h : ThreadOk P q t) {x : E × X} {rest : List (E × X)}
    (ht : t.todo = x :: rest) {r : Reply D} (hr : RightReply P x r) : ThreadOk P q ⟨rest, .ready, t.replies ++ [(x, r)]⟩ := by
  refine ⟨?_, fun _ => rfl, fun _ _ _ => trivial, ?_⟩
  · have := h.asked; rw [ht] at this; simpa using this
  · intro y r' hy
    rcases List.mem_append.1 hy with hy | hy
    · exact h.right y r' hy
    · simp at hy; obtain ⟨rfl, rfl⟩ := hy; exact hr

theorem Inv.step {P : Pack A E F D X} {qs : List (List (E × X))} {s : State A E F D X} (h : Inv P qs s) (i : Nat) : Inv P qs (step P s i) := by
  rcases step_trans P s i with ⟨e, -⟩ | ⟨t, x, rest, ht, htodo, htr⟩
  · rw [e]; exact h
  obtain ⟨q, hq, hok⟩ := h.threads i t ht
  have hpc := hok.pc x rest htodo
  have hset : ∀ t', ThreadOk P q t' → ∀ (j : Nat) (u : Asker A E F D X), (s.threads.set i t')[j]? = some u → ∃ q, qs[j]? = some q ∧ ThreadOk P q u := by
    intro t' ht' j u hu
    rw [set_get ht] at hu
    split at hu
    · rename_i e; subst e; simp at hu; subst hu; exact ⟨q, hq, ht'⟩
    · exact h.threads j u hu
  generalize hs' : Asked.step P s i = s' at htr
  cases htr with
  | unsupported hp hb => exact ⟨h.paths, h.deps, by simp [h.length], hset _ (hok.answer htodo (.unsupported hb))⟩
  | chosen a hp hb => exact ⟨h.paths, h.deps, by simp [h.length], hset _ (hok.advance htodo hb)⟩
  | known a d ds hp hd =>
    rw [hp] at hpc
    obtain ⟨n, f, e, h1, h2, h3⟩ := h.deps a _ hd
    exact ⟨h.paths, h.deps, by simp [h.length], hset _ (hok.answer htodo (.deps a n f e _ hpc h2 h1 h3))⟩
  | unknown a hp hd => rw [hp] at hpc; exact ⟨h.paths, h.deps, by simp [h.length], hset _ (hok.advance htodo hpc)⟩
  | there a f hp hf => rw [hp] at hpc; exact ⟨h.paths, h.deps, by simp [h.length], hset _ (hok.advance htodo ⟨hpc, h.paths a f hf⟩)⟩
  | missing a hp hf => rw [hp] at hpc; exact ⟨h.paths, h.deps, by simp [h.length], hset _ (hok.advance htodo hpc)⟩
  | fetched a f hp hf => rw [hp] at hpc; exact ⟨h.paths, h.deps, by simp [h.length], hset _ (hok.advance htodo ⟨hpc, _, hf⟩)⟩
  | notFetched a hp hf => rw [hp] at hpc; exact ⟨h.paths, h.deps, by simp [h.length], hset _ (hok.answer htodo (.notRetrieved a _ hpc hf))⟩
  | kept a f hp =>
    rw [hp] at hpc
    refine ⟨?_, h.deps, by simp [h.length], hset _ (hok.advance htodo hpc)⟩
    intro b g hg
    simp only [put] at hg
    split at hg
    · rename_i e; subst e; simp at hg; subst hg; exact hpc.2
    · exact h.paths b g hg
  | read a f ds hp hm =>
    rw [hp] at hpc
    obtain ⟨h1, n, h2⟩ := hpc
    exact ⟨h.paths, h.deps, by simp [h.length], hset _ (hok.advance htodo ⟨h1, n, f, h2, hm⟩)⟩
  | notRead a f hp hm =>
    rw [hp] at hpc
    obtain ⟨h1, n, h2⟩ := hpc
    exact ⟨h.paths, h.deps, by simp [h.length], hset _ (hok.answer htodo (.notRead a n f h1 h2 hm))⟩
  | noted a ds hp =>
    rw [hp] at hpc
    obtain ⟨h1, n, f, h2, h3⟩ := hpc
    refine ⟨h.paths, ?_, by simp [h.length], hset _ (hok.answer htodo (.deps a n f _ ds h1 h1 h2 h3))⟩
    intro b cs hc
    simp only [put] at hc
    split at hc
    · rename_i e; subst e; simp at hc; subst hc; exact ⟨n, f, _, h2, h1, h3⟩
    · exact h.deps b cs hc

theorem Inv.run {P : Pack A E F D X} {qs : List (List (E × X))} {s : State A E F D X} (h : Inv P qs s) (is : List Nat) : Inv P qs (run P s is) := by
  induction is generalizing s with
  | nil => exact h
  | cons i is ih => exact ih (h.step i)

theorem Inv.start (P : Pack A E F D X) (qs : List (List (E × X))) : Inv P qs (start qs) := by
  refine ⟨by simp [Asked.start], by simp [Asked.start], by simp [Asked.start], ?_⟩
  intro i t h
  simp only [Asked.start, List.getElem?_map, Option.map_eq_some_iff] at h
  obtain ⟨q, hq, rfl⟩ := h
  exact ⟨q, hq, by simp, fun _ => rfl, fun _ _ _ => trivial, by simp⟩

/-! ### Once -/

/-- A thread retrieves an artifact once: it is then in the dictionary or about to be. -/
def FetchOnce (s : State A E F D X) : Prop := ∀ (i : Nat) (t : Asker A E F D X) a, s.threads[i]? = some t →
  retrievals s i a ≤ 1 ∧ (t.pc = .fetch a → retrievals s i a = 0) ∧ (0 < retrievals s i a → s.paths a ≠ none ∨ ∃ f, t.pc = .keep a f)

/-- The same for readings. -/
def ReadOnce (s : State A E F D X) : Prop := ∀ (i : Nat) (t : Asker A E F D X) a, s.threads[i]? = some t →
  readings s i a ≤ 1 ∧ ((t.pc = .path a ∨ t.pc = .fetch a ∨ (∃ f, t.pc = .keep a f) ∨ ∃ f, t.pc = .extract a f) → readings s i a = 0) ∧
    (0 < readings s i a → (∃ d ds, s.deps a = some (d :: ds)) ∨ ∃ ds, t.pc = .note a ds)

theorem FetchOnce.quiet {s s' : State A E F D X} (h : FetchOnce s) {i : Nat} {t t' : Asker A E F D X} (ht : s.threads[i]? = some t)
    (hth : s'.threads = s.threads.set i t') (hf : s'.fetches = s.fetches) (hp : ∀ a, s.paths a ≠ none → s'.paths a ≠ none)
    (h1 : ∀ a, t'.pc = .fetch a → retrievals s i a = 0) (h2 : ∀ a, 0 < retrievals s i a → s'.paths a ≠ none ∨ ∃ f, t'.pc = .keep a f) : FetchOnce s' := by
  intro j u a hu
  have hr : retrievals s' j a = retrievals s j a := by simp [retrievals, hf]
  rw [hr]
  rw [hth, set_get ht] at hu
  split at hu
  · rename_i e; subst e; simp at hu; subst hu
    exact ⟨(h j t a ht).1, h1 a, h2 a⟩
  · obtain ⟨x, y, z⟩ := h j u a hu
    exact ⟨x, y, fun h0 => (z h0).imp (hp a) id⟩

theorem FetchOnce.step {P : Pack A E F D X} {s : State A E F D X} (h : FetchOnce s) (i : Nat) : FetchOnce (step P s i) := by
  rcases step_trans P s i with ⟨e, -⟩ | ⟨t, x, rest, ht, htodo, htr⟩
  · rw [e]; exact h
  have hi := fun a => h i t a ht
  generalize hs' : Asked.step P s i = s' at htr
  have plain : ∀ t' : Asker A E F D X, (∀ a, t'.pc ≠ .fetch a) → (∀ a f, t.pc ≠ .keep a f) → ∀ s' : State A E F D X, s'.threads = s.threads.set i t' →
      s'.fetches = s.fetches → s'.paths = s.paths → FetchOnce s' := by
    intro t' hn hk s' h1 h2 h3
    refine h.quiet ht h1 h2 (fun a ha => by rw [h3]; exact ha) (fun a e => absurd e (hn a)) (fun a h0 => ?_)
    rcases (hi a).2.2 h0 with h | ⟨f, h⟩
    · left; rw [h3]; exact h
    · exact absurd h (hk a f)
  cases htr with
  | unsupported hp hb => exact plain _ (by simp) (by simp [hp]) _ rfl rfl rfl
  | chosen a hp hb => exact plain _ (by simp) (by simp [hp]) _ rfl rfl rfl
  | known a d ds hp hd => exact plain _ (by simp) (by simp [hp]) _ rfl rfl rfl
  | unknown a hp hd => exact plain _ (by simp) (by simp [hp]) _ rfl rfl rfl
  | there a f hp hf => exact plain _ (by simp) (by simp [hp]) _ rfl rfl rfl
  | missing a hp hf =>
    have hz : ∀ b, b = a → retrievals s i b = 0 := by
      rintro b rfl
      rcases Nat.eq_zero_or_pos (retrievals s i b) with h0 | h0
      · exact h0
      · rcases (hi b).2.2 h0 with h1 | ⟨f, h1⟩
        · exact absurd hf h1
        · rw [hp] at h1; cases h1
    refine h.quiet ht rfl rfl (fun _ h => h) (fun b e => ?_) (fun b h0 => ?_)
    · simp at e; exact hz b e.symm
    · rcases (hi b).2.2 h0 with h1 | ⟨f, h1⟩
      · exact .inl h1
      · rw [hp] at h1; cases h1
  | fetched a f hp hf =>
    intro j u b hu
    rw [set_get ht] at hu
    have hc : retrievals { s with threads := s.threads.set i ⟨x :: rest, .keep a f, t.replies⟩, fetches := s.fetches ++ [(i, a, some f)] } j b =
        retrievals s j b + (if i = j ∧ a = b then 1 else 0) := by
      simp only [retrievals, List.countP_append, List.countP_singleton, Option.isSome_some, Bool.and_true, Bool.and_eq_true, decide_eq_true_eq]
    rw [hc]
    split at hu
    · rename_i e; subst e; simp at hu; subst hu
      by_cases hb : a = b
      · subst hb
        simp [(hi a).2.1 hp]
      · simp only [hb, and_false, if_false, Nat.add_zero]
        refine ⟨(hi b).1, by simp, fun h0 => ?_⟩
        rcases (hi b).2.2 h0 with h1 | ⟨g, h1⟩
        · exact .inl h1
        · rw [hp] at h1; cases h1
    · rename_i e
      have : ¬ (i = j ∧ a = b) := fun h => e h.1.symm
      simp only [this, if_false, Nat.add_zero]
      exact h j u b hu
  | notFetched a hp hf =>
    have hc : ∀ (s' : State A E F D X), s'.fetches = s.fetches ++ [(i, a, none)] → ∀ j b, retrievals s' j b = retrievals s j b := by
      intro s' h j b
      simp [retrievals, h, List.countP_append]
    intro j u b hu
    rw [set_get ht] at hu
    rw [hc _ rfl]
    split at hu
    · rename_i e; subst e; simp at hu; subst hu
      refine ⟨(hi b).1, by simp, fun h0 => ?_⟩
      rcases (hi b).2.2 h0 with h1 | ⟨g, h1⟩
      · exact .inl h1
      · rw [hp] at h1; cases h1
    · exact h j u b hu
  | kept a f hp =>
    have hput : ∀ b, s.paths b ≠ none → put s.paths a f b ≠ none := by
      intro b hb; simp only [put]; split <;> simp [hb]
    refine h.quiet ht rfl rfl hput (by simp) (fun b h0 => ?_)
    rcases (hi b).2.2 h0 with h1 | ⟨g, h1⟩
    · exact .inl (hput b h1)
    · rw [hp] at h1; simp at h1; obtain ⟨rfl, rfl⟩ := h1; left; simp [put]
  | read a f ds hp hm => exact plain _ (by simp) (by simp [hp]) _ rfl rfl rfl
  | notRead a f hp hm => exact plain _ (by simp) (by simp [hp]) _ rfl rfl rfl
  | noted a ds hp => exact plain _ (by simp) (by simp [hp]) _ rfl rfl rfl

theorem ReadOnce.quiet {s s' : State A E F D X} (h : ReadOnce s) {i : Nat} {t t' : Asker A E F D X} (ht : s.threads[i]? = some t)
    (hth : s'.threads = s.threads.set i t') (hf : ∀ j a, readings s' j a = readings s j a)
    (hp : ∀ a, (∃ d ds, s.deps a = some (d :: ds)) → ∃ d ds, s'.deps a = some (d :: ds))
    (h1 : ∀ a, (t'.pc = .path a ∨ t'.pc = .fetch a ∨ (∃ f, t'.pc = .keep a f) ∨ ∃ f, t'.pc = .extract a f) → readings s i a = 0)
    (h2 : ∀ a, 0 < readings s i a → (∃ d ds, s'.deps a = some (d :: ds)) ∨ ∃ ds, t'.pc = .note a ds) : ReadOnce s' := by
  intro j u a hu
  rw [hf]
  rw [hth, set_get ht] at hu
  split at hu
  · rename_i e; subst e; simp at hu; subst hu
    exact ⟨(h j t a ht).1, h1 a, h2 a⟩
  · obtain ⟨x, y, z⟩ := h j u a hu
    exact ⟨x, y, fun h0 => (z h0).imp (hp a) id⟩

theorem ReadOnce.step {P : Pack A E F D X} (hne : ∀ a f e, P.meta a f e ≠ some []) {s : State A E F D X}
    (hn : ∀ (i : Nat) (t : Asker A E F D X) a ds, s.threads[i]? = some t → t.pc = .note a ds → ds ≠ []) (h : ReadOnce s) (i : Nat) : ReadOnce (step P s i) := by
  rcases step_trans P s i with ⟨e, -⟩ | ⟨t, x, rest, ht, htodo, htr⟩
  · rw [e]; exact h
  have hi := fun a => h i t a ht
  generalize hs' : Asked.step P s i = s' at htr
  have stay : ∀ b, (∀ ds, t.pc ≠ .note b ds) → 0 < readings s i b → ∃ d ds, s.deps b = some (d :: ds) := by
    intro b hb h0
    rcases (hi b).2.2 h0 with h1 | ⟨ds, h1⟩
    · exact h1
    · exact absurd h1 (hb ds)
  have zero : ∀ b, (t.pc = .path b ∨ t.pc = .fetch b ∨ (∃ f, t.pc = .keep b f) ∨ ∃ f, t.pc = .extract b f) → readings s i b = 0 := fun b => (hi b).2.1
  cases htr with
  | unsupported hp hb => exact h.quiet ht rfl (fun _ _ => rfl) (fun _ h => h) (by simp) (fun b h0 => .inl (stay b (by simp [hp]) h0))
  | chosen a hp hb => exact h.quiet ht rfl (fun _ _ => rfl) (fun _ h => h) (by simp) (fun b h0 => .inl (stay b (by simp [hp]) h0))
  | known a d ds hp hd => exact h.quiet ht rfl (fun _ _ => rfl) (fun _ h => h) (by simp) (fun b h0 => .inl (stay b (by simp [hp]) h0))
  | unknown a hp hd =>
    refine h.quiet ht rfl (fun _ _ => rfl) (fun _ h => h) (fun b hb => ?_) (fun b h0 => .inl (stay b (by simp [hp]) h0))
    simp at hb; subst hb
    rcases Nat.eq_zero_or_pos (readings s i a) with h0 | h0
    · exact h0
    · obtain ⟨d, ds, h1⟩ := stay a (by simp [hp]) h0
      exact absurd h1 (hd d ds)
  | there a f hp hf =>
    refine h.quiet ht rfl (fun _ _ => rfl) (fun _ h => h) (fun b hb => ?_) (fun b h0 => .inl (stay b (by simp [hp]) h0))
    simp at hb; subst hb; exact zero a (.inl hp)
  | missing a hp hf =>
    refine h.quiet ht rfl (fun _ _ => rfl) (fun _ h => h) (fun b hb => ?_) (fun b h0 => .inl (stay b (by simp [hp]) h0))
    simp at hb; subst hb; exact zero a (.inl hp)
  | fetched a f hp hf =>
    refine h.quiet ht rfl (fun _ _ => rfl) (fun _ h => h) (fun b hb => ?_) (fun b h0 => .inl (stay b (by simp [hp]) h0))
    simp at hb; subst hb; exact zero a (.inr (.inl hp))
  | notFetched a hp hf => exact h.quiet ht rfl (fun _ _ => rfl) (fun _ h => h) (by simp) (fun b h0 => .inl (stay b (by simp [hp]) h0))
  | kept a f hp =>
    refine h.quiet ht rfl (fun _ _ => rfl) (fun _ h => h) (fun b hb => ?_) (fun b h0 => .inl (stay b (by simp [hp]) h0))
    simp at hb; subst hb; exact zero a (.inr (.inr (.inl ⟨f, hp⟩)))
  | read a f ds hp hm =>
    intro j u b hu
    rw [set_get ht] at hu
    have hc : readings { s with threads := s.threads.set i ⟨x :: rest, .note a ds, t.replies⟩, extracts := s.extracts ++ [(i, a, some ds)] } j b =
        readings s j b + (if i = j ∧ a = b then 1 else 0) := by
      simp only [readings, List.countP_append, List.countP_singleton, Option.isSome_some, Bool.and_true, Bool.and_eq_true, decide_eq_true_eq]
    rw [hc]
    split at hu
    · rename_i e; subst e; simp at hu; subst hu
      by_cases hb : a = b
      · subst hb
        simp [zero a (.inr (.inr (.inr ⟨f, hp⟩)))]
      · simp only [hb, and_false, if_false, Nat.add_zero]
        exact ⟨(hi b).1, by simp, fun h0 => .inl (stay b (by simp [hp]) h0)⟩
    · rename_i e
      have : ¬ (i = j ∧ a = b) := fun h => e h.1.symm
      simp only [this, if_false, Nat.add_zero]
      exact h j u b hu
  | notRead a f hp hm =>
    refine h.quiet ht rfl (fun j b => ?_) (fun _ h => h) (by simp) (fun b h0 => .inl (stay b (by simp [hp]) h0))
    simp [readings, List.countP_append]
  | noted a ds hp =>
    obtain ⟨d, ds', rfl⟩ : ∃ d ds', ds = d :: ds' := by
      cases ds with
      | nil => exact absurd rfl (hn i t a [] ht hp)
      | cons d ds' => exact ⟨d, ds', rfl⟩
    have hput : ∀ b, (∃ d ds, s.deps b = some (d :: ds)) → ∃ d' ds, put s.deps a (d :: ds') b = some (d' :: ds) := by
      intro b hb
      simp only [put]
      split
      · exact ⟨d, ds', rfl⟩
      · exact hb
    refine h.quiet ht rfl (fun _ _ => rfl) hput (by simp) (fun b h0 => ?_)
    left
    rcases (hi b).2.2 h0 with h1 | ⟨cs, h1⟩
    · exact hput b h1
    · rw [hp] at h1; simp at h1; obtain ⟨rfl, -⟩ := h1; exact ⟨d, ds', by simp [put]⟩

/-- Steps that a thread has still to make. -/
def left (t : Asker A E F D X) : Nat :=
  7 * t.todo.length - (match t.pc with | .ready => 0 | .lookup _ => 1 | .path _ => 2 | .fetch _ => 3 | .keep _ _ => 4 | .extract _ _ => 5 | .note _ _ => 6)

end Asked
open Asked

/-- C104, for every history of questions and every order of the steps of the threads: each question gets one reply, in order, and it is a right one. -/
theorem asked_right (P : Pack A E F D X) (qs : List (List (E × X))) (is : List Nat) (i : Nat) (t : Asker A E F D X)
    (ht : (run P (start qs) is).threads[i]? = some t) :
    (∃ q, qs[i]? = some q ∧ t.replies.map (·.1) ++ t.todo = q) ∧ ∀ q r, (q, r) ∈ t.replies → RightReply P q r := by
  obtain ⟨q, hq, hok⟩ := ((Inv.start P qs).run is).threads i t ht
  exact ⟨⟨q, hq, hok.asked⟩, hok.right⟩

/-- C104 for artifacts whose metadata does not depend on the environment, as of wheels, if retrieving gives the same each time: every reply is that of a
package that was not asked before. Missing: see `asked_environment_violated`. -/
theorem asked_same_partial (P : Pack A E F D X) (hs : Steady P) (qs : List (List (E × X))) (is : List Nat) (i : Nat) (t : Asker A E F D X)
    (ht : (run P (start qs) is).threads[i]? = some t) (q : E × X) (r : Reply D) (hr : (q, r) ∈ t.replies)
    (hm : ∀ a, P.best q.1 = some a → SameForAll P a) : r = freshReply P q := by
  have hmeta : ∀ a, P.best q.1 = some a → ∀ f e e', P.meta a f e = P.meta a f e' := by
    intro a ha f e e'
    unfold Pack.meta
    rcases hm a ha with h | h
    · simp [h]
    · split
      · rfl
      · exact h f e e'
  cases (asked_right P qs is i t ht).2 q r hr with
  | unsupported h => simp [freshReply, h]
  | notRetrieved a n h hf => rw [hs n 0 a] at hf; simp [freshReply, h, hf]
  | notRead a n f h hf hm => rw [hs n 0 a] at hf; simp [freshReply, h, hf, hm]
  | deps a n f e ds h he hf hm => rw [hs n 0 a] at hf; rw [hmeta a h f e q.1] at hm; simp [freshReply, h, hf, hm]

/-- C104: a thread retrieves each artifact at most once with success, however often it asks; so does the package if one thread asks. -/
theorem asked_retrieved_once (P : Pack A E F D X) (qs : List (List (E × X))) (is : List Nat) (i : Nat) (a : A) :
    retrievals (run P (start qs) is) i a ≤ 1 := by
  have key : FetchOnce (run P (start qs) is) ∧ ∀ j, (run P (start qs) is).threads.length ≤ j → ∀ a, retrievals (run P (start qs) is) j a = 0 := by
    suffices ∀ s : State A E F D X, FetchOnce s → (∀ j, s.threads.length ≤ j → ∀ a, retrievals s j a = 0) →
        FetchOnce (run P s is) ∧ ∀ j, (run P s is).threads.length ≤ j → ∀ a, retrievals (run P s is) j a = 0 from
      this _ (by
        intro j u b hu
        simp [retrievals, start]) (by simp [retrievals, start])
    induction is with
    | nil => exact fun s h1 h2 => ⟨h1, h2⟩
    | cons k is ih =>
      intro s h1 h2
      refine ih _ (h1.step k) ?_
      intro j hj b
      rcases step_trans P s k with ⟨e, -⟩ | ⟨t, x, rest, ht, htodo, htr⟩
      · rw [e] at hj ⊢; exact h2 j hj b
      · have hk : k < s.threads.length := by
          rcases Nat.lt_or_ge k s.threads.length with h' | h'
          · exact h'
          · rw [List.getElem?_eq_none h'] at ht; cases ht
        generalize step P s k = s' at htr hj ⊢
        have hlen : s'.threads.length = s.threads.length := by cases htr <;> simp
        rw [hlen] at hj
        have hkj : k ≠ j := by omega
        have : retrievals s' j b = retrievals s j b := by
          cases htr <;> simp [retrievals, List.countP_append, hkj]
        rw [this]; exact h2 j hj b
  rcases Nat.lt_or_ge i (run P (start qs) is).threads.length with h | h
  · exact (key.1 i _ a (List.getElem?_eq_getElem h)).1
  · rw [key.2 i h a]; exact Nat.zero_le _

/-- C104 for packages with dependencies: a thread reads the metadata of each artifact at most once with success. Missing: an empty list of dependencies is
not taken from the dictionary, see `asked_again_violated`. -/
theorem asked_read_once_partial (P : Pack A E F D X) (hne : ∀ a f e, P.meta a f e ≠ some []) (qs : List (List (E × X))) (is : List Nat) (i : Nat) (a : A) :
    readings (run P (start qs) is) i a ≤ 1 := by
  have key : Inv P qs (run P (start qs) is) ∧ ReadOnce (run P (start qs) is) ∧
      ∀ j, (run P (start qs) is).threads.length ≤ j → ∀ a, readings (run P (start qs) is) j a = 0 := by
    suffices ∀ s : State A E F D X, Inv P qs s → ReadOnce s → (∀ j, s.threads.length ≤ j → ∀ a, readings s j a = 0) →
        Inv P qs (run P s is) ∧ ReadOnce (run P s is) ∧ ∀ j, (run P s is).threads.length ≤ j → ∀ a, readings (run P s is) j a = 0 from
      this _ (Inv.start P qs) (by intro j u b hu; simp [readings, start]) (by simp [readings, start])
    induction is with
    | nil => exact fun s h0 h1 h2 => ⟨h0, h1, h2⟩
    | cons k is ih =>
      intro s h0 h1 h2
      refine ih _ (h0.step k) (h1.step hne ?_ k) ?_
      · intro j t b ds ht hp e
        obtain ⟨q, -, hok⟩ := h0.threads j t ht
        cases htodo : t.todo with
        | nil => have := hok.idle htodo; rw [hp] at this; cases this
        | cons x rest =>
          have := hok.pc x rest htodo
          rw [hp] at this
          obtain ⟨-, n, f, -, hm⟩ := this
          rw [e] at hm
          exact hne b f x.1 hm
      intro j hj b
      rcases step_trans P s k with ⟨e, -⟩ | ⟨t, x, rest, ht, htodo, htr⟩
      · rw [e] at hj ⊢; exact h2 j hj b
      · have hk : k < s.threads.length := by
          rcases Nat.lt_or_ge k s.threads.length with h' | h'
          · exact h'
          · rw [List.getElem?_eq_none h'] at ht; cases ht
        generalize step P s k = s' at htr hj ⊢
        have hlen : s'.threads.length = s.threads.length := by cases htr <;> simp
        rw [hlen] at hj
        have hkj : k ≠ j := by omega
        have : readings s' j b = readings s j b := by
          cases htr <;> simp [readings, List.countP_append, hkj]
        rw [this]; exact h2 j hj b
  rcases Nat.lt_or_ge i (run P (start qs) is).threads.length with h | h
  · exact (key.2.1 i _ a (List.getElem?_eq_getElem h)).1
  · rw [key.2.2 i h a]; exact Nat.zero_le _

/-- C104: nothing has to wait: a thread that has a question left makes progress with each of its steps, at most seven for a question. -/
theorem asked_replies (P : Pack A E F D X) (s : State A E F D X) (i : Nat) (t : Asker A E F D X) (ht : s.threads[i]? = some t) (hq : t.todo ≠ []) :
    ∃ u, (step P s i).threads[i]? = some u ∧ left u < left t := by
  rcases step_trans P s i with ⟨-, e⟩ | ⟨t', x, rest, ht', htodo, htr⟩
  · exact absurd (e t ht) hq
  · rw [ht] at ht'; simp at ht'; subst ht'
    generalize step P s i = s' at htr
    cases htr <;> refine ⟨_, by rw [set_get ht, if_pos rfl], ?_⟩ <;> rename_i hp <;> simp_all [left] <;> omega

/-- C104: a failure is not remembered: what is known after a step that ends with a failure is what was known before it. -/
theorem asked_failure_forgotten (P : Pack A E F D X) (s : State A E F D X) (i : Nat) (t u : Asker A E F D X) (q : E × X) (ht : s.threads[i]? = some t)
    (hu : (step P s i).threads[i]? = some u) (hr : u.replies = t.replies ++ [(q, .failed)]) :
    (step P s i).deps = s.deps ∧ (step P s i).paths = s.paths := by
  rcases step_trans P s i with ⟨e, -⟩ | ⟨t', x, rest, ht', htodo, htr⟩
  · rw [e]; exact ⟨rfl, rfl⟩
  · rw [ht] at ht'; simp at ht'; subst ht'
    generalize step P s i = s' at htr hu
    cases htr with
    | kept a f hp => rw [set_get ht, if_pos rfl] at hu; simp at hu; subst hu; simp at hr
    | noted a ds hp => rw [set_get ht, if_pos rfl] at hu; simp at hu; subst hu; simp [Pack.applying] at hr
    | _ => exact ⟨rfl, rfl⟩

namespace AskedExample

/-- Environments 0 (python 3.9), 1 (3.11) and 2 (none of the artifacts); artifact 0 is a source distribution and 1 a wheel. The metadata of the source
distribution is computed and names the dependency 7 on 3.9 only. -/
def pk : Pack Nat Nat Nat Nat Nat where
  best := fun e => if e = 0 ∨ e = 1 then some 0 else if e = 3 then some 1 else none
  isWheel := fun a => a = 1
  fetch := fun n a => some (10 + a)
  wheelMeta := fun f => some [f, 5]
  sourceMeta := fun f e => if e = 0 then some [7, 5] else some [5]
  applies := fun d e x => d ≠ x

/-- The same with artifacts without dependencies. -/
def bare : Pack Nat Nat Nat Nat Nat := { pk with wheelMeta := fun _ => some [] }

/-- The same with a first retrieval that fails. -/
def flaky : Pack Nat Nat Nat Nat Nat := { pk with fetch := fun n a => if n = 0 then none else some (10 + a) }

/-- Two threads at once, one of them with two questions: both retrieve the wheel and both get the right replies. -/
example : (run pk (start [[(3, 0), (2, 0)], [(3, 5)]]) [0, 1, 0, 1, 0, 1, 0, 1, 0, 1, 0, 1, 0, 1, 0, 1]).threads.map (·.replies) =
    [[((3, 0), .deps [11, 5]), ((2, 0), .unsupported)], [((3, 5), .deps [11])]] := by decide
example : (run pk (start [[(3, 0), (2, 0)], [(3, 5)]]) [0, 1, 0, 1, 0, 1, 0, 1, 0, 1, 0, 1, 0, 1, 0, 1]).fetches = [(0, 1, some 11), (1, 1, some 11)] := by decide

/-- `asked_same_partial` for these. -/
example (r : Reply Nat) (t : Asker Nat Nat Nat Nat Nat) (is : List Nat) (ht : (run pk (start [[(3, 0), (2, 0)], [(3, 5)]]) is).threads[1]? = some t)
    (hr : ((3, 5), r) ∈ t.replies) : r = .deps [11] :=
  asked_same_partial pk (fun _ _ _ => rfl) _ is 1 t ht (3, 5) r hr (by intro a h; simp [pk] at h; subst h; left; rfl)

/-- `asked_read_once_partial` for these. -/
example (qs : List (List (Nat × Nat))) (is : List Nat) : readings (run pk (start qs) is) 0 1 ≤ 1 :=
  asked_read_once_partial pk (by
    intro a f e
    by_cases h : a = 1 <;> by_cases h' : e = 0 <;> simp [Pack.meta, pk, h, h']) qs is 0 1

/-- `asked_failure_forgotten`: the second question is answered. -/
example : (run flaky (start [[(3, 0), (3, 0)]]) (List.replicate 12 0)).threads.map (·.replies) = [[((3, 0), .failed), ((3, 0), .deps [11, 5])]] := by decide

end AskedExample
open AskedExample

/-- C104 fails for source distributions: asked first for an environment in which its metadata names a dependency, the package names that dependency for
another environment too; and the other way around, it misses a dependency that an unused package names. -/
theorem asked_environment_violated :
    (∀ m n a, pk.fetch m a = pk.fetch n a) ∧
    (run pk (start [[(0, 0), (1, 0)]]) (List.replicate 9 0)).threads.map (·.replies) = [[((0, 0), .deps [7, 5]), ((1, 0), .deps [7, 5])]] ∧
    freshReply pk (1, 0) = .deps [5] ∧
    (run pk (start [[(1, 0), (0, 0)]]) (List.replicate 9 0)).threads.map (·.replies) = [[((1, 0), .deps [5]), ((0, 0), .deps [5])]] ∧
    freshReply pk (0, 0) = .deps [7, 5] :=
  ⟨fun _ _ _ => rfl, by decide, by decide, by decide, by decide⟩

/-- C104 fails for packages without dependencies: their metadata is read (for a source distribution: computed by building it) at each question. -/
theorem asked_again_violated : readings (run bare (start [[(3, 0), (3, 0)]]) (List.replicate 12 0)) 0 1 = 2 := by decide

/-- C104 fails for threads that ask at the same time: each retrieves the artifact and reads its metadata. -/
theorem asked_threads_violated :
    retrievals (run pk (start [[(3, 0)], [(3, 0)]]) [0, 0, 0, 1, 1, 1, 0, 1, 0, 1, 0, 1]) 0 1 = 1 ∧
    retrievals (run pk (start [[(3, 0)], [(3, 0)]]) [0, 0, 0, 1, 1, 1, 0, 1, 0, 1, 0, 1]) 1 1 = 1 ∧
    readings (run pk (start [[(3, 0)], [(3, 0)]]) [0, 0, 0, 1, 1, 1, 0, 1, 0, 1, 0, 1]) 0 1 = 1 ∧
    readings (run pk (start [[(3, 0)], [(3, 0)]]) [0, 0, 0, 1, 1, 1, 0, 1, 0, 1, 0, 1]) 1 1 = 1 := by decide

end Pkm
