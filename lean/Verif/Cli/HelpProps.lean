import Verif.Cli.Help
import Verif.Cli.Lemmas
import Verif.Cli.Methods
import Verif.Tags.Model
/-
Properties of the help of a command (C109).
-/
set_option linter.unusedVariables false
set_option linter.unusedSimpArgs false
set_option linter.unusedSectionVars false
namespace Pkm

namespace Spec
open Cli

/-- What the user types as `key` is option `o`: it is the last option with that name. -/
def NamedBy {V : Type} (opts : List (OptDef V)) (o : OptDef V) (key : Text) : Prop :=
  ∃ before after, opts = before ++ o :: after ∧ key ∈ o.names ∧ ∀ o' ∈ after, key ∉ o'.names

/-- Every option has a name of its own and shares none. -/
def OwnNames {V : Type} (opts : List (OptDef V)) : Prop :=
  (∀ o ∈ opts, o.names ≠ []) ∧ opts.Pairwise (fun a b => ∀ n ∈ a.names, n ∉ b.names)

/-- All names are of the form `--name`. -/
def LongOnly (names : List Text) : Prop := ∀ n ∈ names, ∃ s, n = '-' :: '-' :: s

/-- The reader takes a text and says of which kind. -/
def Hinted {V : Type} (tx : Help.Texts V) (r : Reader V) : Prop := ∃ conv, r = .text conv ∧ tx.hint conv ≠ []

/-- One of the fields takes a value and has long names only. -/
def LongField {V : Type} (tx : Help.Texts V) (fs : Option (List (FieldDef V))) : Prop :=
  ∃ l f, fs = some l ∧ f ∈ l ∧ LongOnly f.names ∧ Hinted tx f.reader

/-- Part of a text. -/
def PartOf (s t : Text) : Prop := ∃ a b, t = a ++ s ++ b

/-- A text without square brackets. -/
def Unbracketed (s : Text) : Prop := s ≠ [] ∧ '[' ∉ s ∧ ']' ∉ s

/-- A text mentions an option: by one of its names, or by its letter among others after a dash. -/
def MentionsOption {V : Type} (u : Text) (o : OptDef V) : Prop :=
  ∃ n ∈ o.names, PartOf n u ∨ ∃ d c ls, n = [d, c] ∧ c ∈ ls ∧ PartOf ('-' :: ls) u

end Spec
open Spec

namespace Cli
namespace Help
variable {V : Type}

/-! ### Listed options -/

theorem foldl_put_get (ps : List (Text × Nat)) : ∀ (d : Dict Text Nat) (k : Text),
    (ps.foldl (fun d p => Dict.put d p.1 p.2) d).get k =
      match ps.reverse.find? (fun p => p.1 == k) with
      | some p => some p.2
      | none => d.get k := by
  induction ps with
  | nil => intro d k; rfl
  | cons p ps ih =>
    intro d k
    rw [List.foldl_cons, ih, List.reverse_cons, List.find?_append]
    cases h : ps.reverse.find? (fun p => p.1 == k) with
    | some q => rfl
    | none =>
      simp only [Option.none_or, List.find?_cons, List.find?_nil, Dict.get_put]
      by_cases hk : p.1 = k
      · simp [hk]
      · have : ¬ k = p.1 := fun h => hk h.symm
        have hb : (p.1 == k) = false := by simp [hk]
        simp only [hb, if_neg hk]

theorem foldl_put_wf (ps : List (Text × Nat)) : ∀ (d : Dict Text Nat), Dict.Wf d →
    Dict.Wf (ps.foldl (fun d p => Dict.put d p.1 p.2) d) := by
  induction ps with
  | nil => intro d h; exact h
  | cons p ps ih => intro d h; exact ih _ (Dict.wf_put d _ _ h)

/-- The pairs of names and numbers. -/
def pairs (opts : List (OptDef V)) (i : Nat) : List (Text × Nat) :=
  (opts.zipIdx i).flatMap (fun p => p.1.names.map (fun n => (n, p.2)))

theorem find_pairs (k : Text) : ∀ (opts : List (OptDef V)) (i j : Nat),
    (pairs opts i).reverse.find? (fun p => p.1 == k) = some (k, j) ↔
      ∃ before o after, opts = before ++ o :: after ∧ k ∈ o.names ∧ (∀ o' ∈ after, k ∉ o'.names) ∧ j = i + before.length := by
  intro opts
  induction opts with
  | nil => intro i j; simp [pairs]
  | cons o os ih =>
    intro i j
    have hp : pairs (o :: os) i = o.names.map (fun n => (n, i)) ++ pairs os (i + 1) := by
      simp [pairs, List.zipIdx_cons]
    rw [hp, List.reverse_append, List.find?_append]
    cases hf : (pairs os (i + 1)).reverse.find? (fun p => p.1 == k) with
    | some q =>
      have hq : q.1 = k := by simpa using List.find?_some hf
      have hq' : q = (k, q.2) := by rw [← hq]
      rw [hq'] at hf
      obtain ⟨b, o', a, e, hk, ha, hj⟩ := (ih (i + 1) q.2).1 hf
      constructor
      · intro h
        have : q.2 = j := by simpa using congrArg (Option.map Prod.snd) h
        exact ⟨o :: b, o', a, by rw [e]; rfl, hk, ha, by simp; omega⟩
      · rintro ⟨b', o'', a', e', hk', ha', hj'⟩
        cases b' with
        | nil =>
          exfalso
          have : os = a' := by simpa using (List.cons.inj e').2
          exact ha' o' (this ▸ e ▸ by simp) hk
        | cons x b' =>
          have e2 : os = b' ++ o'' :: a' := (List.cons.inj e').2
          have := (ih (i + 1) j).2 ⟨b', o'', a', e2, hk', ha', by simp at hj'; omega⟩
          rw [hf] at this
          exact (congrArg some hq').trans this
    | none =>
      have hn : ∀ o' ∈ os, k ∉ o'.names := by
        intro o' ho' hk
        rw [List.find?_eq_none] at hf
        obtain ⟨n, hn⟩ := List.getElem?_of_mem ho'
        refine hf (k, i + 1 + n) ?_ (by simp)
        rw [List.mem_reverse, pairs, List.mem_flatMap]
        refine ⟨(o', i + 1 + n), ?_, by simpa using hk⟩
        rw [List.mem_iff_getElem?]
        exact ⟨n, by simp [hn]⟩
      simp only [Option.none_or]
      constructor
      · intro h
        have hm := List.mem_of_find?_eq_some h
        simp at hm
        obtain ⟨n, hm, rfl, hij⟩ := hm
        exact ⟨[], o, os, rfl, hm, hn, by simp [hij]⟩
      · rintro ⟨b', o'', a', e', hk', ha', hj'⟩
        cases b' with
        | nil =>
          have e1 := List.cons.inj e'
          have : k ∈ o.names := e1.1 ▸ hk'
          cases hx : (o.names.map (fun n => (n, i))).reverse.find? (fun p => p.1 == k) with
          | none =>
            rw [List.find?_eq_none] at hx
            exact absurd (by simp) (hx (k, i) (by simpa using this))
          | some q =>
            have hq : q.1 = k := by simpa using List.find?_some hx
            have hm := List.mem_of_find?_eq_some hx
            simp at hm
            obtain ⟨n, _, hm⟩ := hm
            subst hm
            simp at hq hj'
            simp [hq, hj']
        | cons x b' =>
          have e2 : os = b' ++ o'' :: a' := (List.cons.inj e').2
          exact absurd hk' (hn o'' (by simp [e2]))

theorem table_get (opts : List (OptDef V)) (k : Text) (j : Nat) :
    (optionTable opts).get k = some j ↔
      ∃ before o after, opts = before ++ o :: after ∧ k ∈ o.names ∧ (∀ o' ∈ after, k ∉ o'.names) ∧ j = before.length := by
  have h := find_pairs k opts 0 j
  simp only [Nat.zero_add] at h
  rw [← h]
  unfold optionTable
  rw [foldl_put_get]
  change (match (pairs opts 0).reverse.find? (fun p => p.1 == k) with | some p => some p.2 | none => Dict.get [] k) = _ ↔ _
  cases hf : (pairs opts 0).reverse.find? (fun p => p.1 == k) with
  | none => simp [Dict.get]
  | some q =>
    have hq : q.1 = k := by simpa using List.find?_some hf
    subst hq
    constructor
    · intro h; cases q; simpa using h
    · intro h; cases q; simpa using h

theorem mem_values {d : Dict Text Nat} (h : Dict.Wf d) (j : Nat) : j ∈ Dict.values d ↔ ∃ k, d.get k = some j := by
  simp only [Dict.values, List.mem_map]
  constructor
  · rintro ⟨⟨k, v⟩, hm, rfl⟩
    exact ⟨k, Dict.mem_get d k v h hm⟩
  · rintro ⟨k, hk⟩
    exact ⟨(k, j), Dict.get_mem d k j hk, rfl⟩

theorem mem_shown (opts : List (OptDef V)) (o : OptDef V) : o ∈ shown opts ↔ ∃ key, NamedBy opts o key := by
  have hw : Dict.Wf (optionTable opts) := foldl_put_wf _ _ (by simp [Dict.Wf, Dict.keys])
  simp only [shown, List.mem_filterMap, List.mem_eraseDups, mem_values hw]
  constructor
  · rintro ⟨j, ⟨k, hk⟩, ho⟩
    obtain ⟨b, o', a, e, hm, ha, hj⟩ := (table_get opts k j).1 hk
    have : opts[j]? = some o' := by rw [e, hj]; simp
    rw [ho] at this
    cases this
    exact ⟨k, b, a, e, hm, ha⟩
  · rintro ⟨k, b, a, e, hm, ha⟩
    exact ⟨b.length, ⟨k, (table_get opts k _).2 ⟨b, o, a, e, hm, ha, rfl⟩⟩, by rw [e]; simp⟩


theorem values_put_new (d : Dict Text Nat) (k : Text) (j : Nat) (h : d.get k = none) :
    Dict.values (d.put k j) = Dict.values d ++ [j] := by
  induction d with
  | nil => rfl
  | cons p d ih =>
    by_cases hp : p.1 = k
    · subst hp
      simp [Dict.get] at h
    · simp [Dict.get, hp] at h
      simp [Dict.put, hp, Dict.values] at ih ⊢
      exact ih h

theorem values_put_same (d : Dict Text Nat) (k : Text) (j : Nat) (h : d.get k = some j) :
    Dict.values (d.put k j) = Dict.values d := by
  induction d with
  | nil => simp [Dict.get] at h
  | cons p d ih =>
    by_cases hp : p.1 = k
    · subst hp
      simp [Dict.get] at h
      simp [Dict.put, Dict.values, h]
    · simp [Dict.get, hp] at h
      simp [Dict.put, hp, Dict.values] at ih ⊢
      exact ih h

theorem values_put_all (j : Nat) : ∀ (names : List Text) (d : Dict Text Nat), (∀ n ∈ names, d.get n = none ∨ d.get n = some j) →
    ∃ m, Dict.values ((names.map (fun n => (n, j))).foldl (fun d p => Dict.put d p.1 p.2) d) = Dict.values d ++ List.replicate m j := by
  intro names
  induction names with
  | nil => intro d h; exact ⟨0, by simp⟩
  | cons n ns ih =>
    intro d h
    have h' : ∀ x ∈ ns, (d.put n j).get x = none ∨ (d.put n j).get x = some j := by
      intro x hx
      rw [Dict.get_put]
      split
      · exact .inr rfl
      · exact h x (by simp [hx])
    obtain ⟨m, hm⟩ := ih (d.put n j) h'
    rcases h n (by simp) with h0 | h0
    · refine ⟨m + 1, ?_⟩
      simp only [List.map_cons, List.foldl_cons, hm, values_put_new d n j h0, List.append_assoc]
      simp [List.replicate_succ]
    · refine ⟨m, ?_⟩
      simp only [List.map_cons, List.foldl_cons, hm, values_put_same d n j h0]

theorem eraseDups_replicate (j : Nat) (m : Nat) : (List.replicate (m + 1) j).eraseDups = [j] := by
  rw [List.replicate_succ, List.eraseDups_cons]
  have : (List.replicate m j).filter (fun b => !b == j) = [] := by
    rw [List.filter_eq_nil_iff]
    intro a ha
    simp [List.eq_of_mem_replicate ha]
  rw [this]
  rfl

theorem optionTable_snoc (opts : List (OptDef V)) (o : OptDef V) :
    optionTable (opts ++ [o]) =
      (o.names.map (fun n => (n, opts.length))).foldl (fun d p => Dict.put d p.1 p.2) (optionTable opts) := by
  simp [optionTable, List.zipIdx_append, List.flatMap_append, List.foldl_append]

theorem shown_numbers (l : List (OptDef V)) : ∀ (r : List (OptDef V)), l = r.reverse → OwnNames l →
    (Dict.values (optionTable l)).eraseDups = List.range l.length := by
  intro r
  induction r generalizing l with
  | nil => intro e _; subst e; rfl
  | cons o r ih =>
    intro e h
    rw [List.reverse_cons] at e
    generalize hl : r.reverse = l' at e
    subst e
    obtain ⟨hne, hp⟩ := h
    rw [List.pairwise_append] at hp
    have ih' := ih l' hl.symm ⟨fun x hx => hne x (by simp [hx]), hp.1⟩
    have hnone : ∀ n ∈ o.names, (optionTable l').get n = none := by
      intro n hn
      cases hg : (optionTable l').get n with
      | none => rfl
      | some j =>
        obtain ⟨b, x, a, e, hx, _, _⟩ := (table_get l' n j).1 hg
        exact absurd hn (hp.2.2 x (by simp [e]) o (by simp) n hx)
    obtain ⟨m, hm⟩ := values_put_all l'.length o.names (optionTable l') (fun n hn => .inl (hnone n hn))
    rw [optionTable_snoc, hm, List.eraseDups_append, ih']
    have hm0 : m ≠ 0 := by
      intro h0
      subst h0
      have hno := hne o (by simp)
      cases hns : o.names with
      | nil => exact hno hns
      | cons n ns =>
        have hg := (table_get (l' ++ [o]) n l'.length).2 ⟨l', o, [], rfl, by simp [hns], by simp, rfl⟩
        have hw : Dict.Wf (optionTable (l' ++ [o])) := foldl_put_wf _ _ (by simp [Dict.Wf, Dict.keys])
        have hv := (mem_values hw l'.length).2 ⟨n, hg⟩
        rw [optionTable_snoc, hm] at hv
        simp only [List.replicate_zero, List.append_nil] at hv
        rw [← List.mem_eraseDups, ih'] at hv
        simp at hv
    obtain ⟨m, rfl⟩ := Nat.exists_eq_succ_of_ne_zero hm0
    have hr : (List.replicate (m + 1) l'.length).removeAll (Dict.values (optionTable l')) = List.replicate (m + 1) l'.length := by
      unfold List.removeAll
      rw [List.filter_eq_self]
      intro a ha
      have := List.eq_of_mem_replicate ha
      subst this
      have : l'.length ∉ Dict.values (optionTable l') := by
        rw [← List.mem_eraseDups, ih']
        simp
      simpa using this
    rw [hr, eraseDups_replicate]
    simp [List.range_succ]

theorem filterMap_eq {α β : Type} {f g : α → Option β} : ∀ {l : List α}, (∀ a ∈ l, f a = g a) → l.filterMap f = l.filterMap g
  | [], _ => rfl
  | a :: l, h => by
    rw [List.filterMap_cons, List.filterMap_cons, h a (by simp), filterMap_eq (fun b hb => h b (by simp [hb]))]

theorem filterMap_range (l : List (OptDef V)) : (List.range l.length).filterMap (fun i => l[i]?) = l := by
  have : ∀ (r l : List (OptDef V)), l = r.reverse → (List.range l.length).filterMap (fun i => l[i]?) = l := by
    intro r
    induction r with
    | nil => intro l e; subst e; rfl
    | cons o r ih =>
      intro l e
      rw [List.reverse_cons] at e
      have ih' := ih r.reverse rfl
      generalize r.reverse = l' at e ih'
      subst e
      rw [List.length_append, List.length_singleton, List.range_succ, List.filterMap_append]
      congr 1
      · refine Eq.trans ?_ ih'
        apply filterMap_eq
        intro i hi
        rw [List.mem_range] at hi
        exact List.getElem?_append_left hi
      · simp
  exact this l.reverse l (by simp)

/-! ### Parts of texts -/

theorem part_refl (s : Text) : PartOf s s := ⟨[], [], by simp⟩

theorem part_trans {s t u : Text} : PartOf s t → PartOf t u → PartOf s u := by
  rintro ⟨a, b, rfl⟩ ⟨c, d, rfl⟩
  exact ⟨c ++ a, b ++ d, by simp⟩

theorem part_left {s t : Text} (u : Text) (h : PartOf s t) : PartOf s (t ++ u) :=
  part_trans h ⟨[], u, by simp⟩

theorem part_right {s t : Text} (u : Text) (h : PartOf s t) : PartOf s (u ++ t) :=
  part_trans h ⟨u, [], by simp⟩

theorem part_cons {s t : Text} (c : Char) (h : PartOf s t) : PartOf s (c :: t) := part_right [c] h

theorem part_bracket {s t : Text} (h : PartOf s t) : PartOf s (bracket t) := part_cons _ (part_left _ h)

theorem part_join (sep : Text) {t : Text} : ∀ {ts : List Text}, t ∈ ts → PartOf t (joinWith sep ts)
  | [], h => by simp at h
  | [u], h => by simp at h; subst h; exact part_refl _
  | u :: v :: ts, h => by
    rcases List.mem_cons.1 h with h1 | h1
    · subst h1; exact part_left _ (part_refl _)
    · exact part_right _ (part_right _ (part_join sep h1))

theorem dropWhile_append {p : Char → Bool} : ∀ (a x : Text), (∀ c, x.head? = some c → p c = false) →
    ∃ a', (a ++ x).dropWhile p = a' ++ x
  | [], x, h => by
    refine ⟨[], ?_⟩
    cases x with
    | nil => rfl
    | cons c x => simp [List.dropWhile_cons, h c rfl]
  | c :: a, x, h => by
    rw [List.cons_append, List.dropWhile_cons]
    split
    · exact dropWhile_append a x h
    · exact ⟨c :: a, rfl⟩

theorem part_strip {s t : Text} (hs : Unbracketed s) (h : PartOf s t) : PartOf s (stripBrackets t) := by
  obtain ⟨a, b, rfl⟩ := h
  obtain ⟨h0, h1, h2⟩ := hs
  have hb : ∀ c ∈ s, (c == '[' || c == ']') = false := by
    intro c hc
    have e1 : c ≠ '[' := fun e => h1 (e ▸ hc)
    have e2 : c ≠ ']' := fun e => h2 (e ▸ hc)
    simp [e1, e2]
  unfold stripBrackets
  obtain ⟨a', ha⟩ := dropWhile_append (p := fun c => c == '[' || c == ']') a (s ++ b) (by
    intro c hc
    cases s with
    | nil => exact absurd rfl h0
    | cons d s =>
      simp at hc
      exact hb c (by simp [hc]))
  simp only [List.append_assoc, ha, List.reverse_append]
  obtain ⟨b', hb'⟩ := dropWhile_append (p := fun c => c == '[' || c == ']') b.reverse (s.reverse ++ a'.reverse) (by
    intro c hc
    have : c ∈ s.reverse := by
      cases hr : s.reverse with
      | nil => exact absurd (List.reverse_eq_nil_iff.1 hr) h0
      | cons d r =>
        rw [hr] at hc
        simp at hc
        simp [hc]
    exact hb c (by simpa using this))
  rw [hb']
  refine ⟨a', b'.reverse, by simp⟩

/-! ### Names -/

theorem mem_definedNames {n : Text} {names : List Text} : n ∈ definedNames names ↔ n ∈ names :=
  (sortBy_perm _ names).mem_iff

theorem isLong_iff (n : Text) : isLong n = true ↔ ∃ s, n = '-' :: '-' :: s := by
  unfold isLong
  split
  · simp
  · rename_i h
    simp only [Bool.false_eq_true, false_iff]
    rintro ⟨s, rfl⟩
    exact h s rfl

theorem shortName_none (names : List Text) : shortName names = none ↔ LongOnly names := by
  unfold shortName LongOnly
  rw [List.find?_eq_none]
  constructor
  · intro h n hn
    have := h n (mem_definedNames.2 hn)
    rw [← isLong_iff]
    simpa using this
  · intro h n hn
    have := (isLong_iff n).2 (h n (mem_definedNames.1 hn))
    simp [this]

theorem shortName_some {names : List Text} {s : Text} (h : shortName names = some s) : s ∈ names :=
  mem_definedNames.1 (List.mem_of_find?_eq_some h)

theorem shortest_mem {names : List Text} (h : names ≠ []) : shortest names ∈ names := by
  unfold shortest
  cases hs : shortName names with
  | some s => simpa using shortName_some hs
  | none =>
    cases hl : longName names with
    | some s => simpa using mem_definedNames.1 (List.mem_of_find?_eq_some hl)
    | none =>
      exfalso
      cases names with
      | nil => exact h rfl
      | cons n ns =>
        have h1 := (shortName_none _).1 hs n (by simp)
        unfold longName at hl
        rw [List.find?_eq_none] at hl
        exact hl n (mem_definedNames.2 (by simp)) ((isLong_iff n).2 h1)

/-! ### When the usage fails -/

theorem mapM_none {α β : Type} {f : α → Option β} : ∀ {l : List α}, l.mapM f = none ↔ ∃ a ∈ l, f a = none
  | [] => by simp
  | a :: l => by
    have ih := mapM_none (f := f) (l := l)
    rw [List.mapM_cons]
    cases hf : f a with
    | none => simp [hf]
    | some b =>
      cases hm : l.mapM f with
      | none => simp [hf, ← ih, hm]
      | some bs =>
        have : ¬ ∃ a ∈ l, f a = none := by rw [← ih, hm]; simp
        simp only [List.mem_cons, exists_eq_or_imp, hf, reduceCtorEq, false_or, this]
        simp

theorem mapM_some {α β : Type} {f : α → Option β} : ∀ {l : List α} {bs : List β}, l.mapM f = some bs → ∀ a ∈ l, ∃ b ∈ bs, f a = some b
  | [], bs, h => by simp
  | a :: l, bs, h => by
    rw [List.mapM_cons] at h
    cases hf : f a with
    | none => simp [hf] at h
    | some b =>
      cases hm : l.mapM f with
      | none => simp [hf, hm] at h
      | some bs' =>
        simp [hf, hm] at h
        subst h
        intro x hx
        rcases List.mem_cons.1 hx with h1 | h1
        · subst h1; exact ⟨b, by simp, hf⟩
        · obtain ⟨y, hy, e⟩ := mapM_some hm x h1
          exact ⟨y, by simp [hy], e⟩

theorem mapM_map {α β : Type} {f : α → Option β} {g : α → β} : ∀ {l : List α} {bs : List β}, l.mapM f = some bs →
    (∀ a ∈ l, ∀ b, f a = some b → b = g a) → bs = l.map g
  | [], bs, h, _ => by simpa using h.symm
  | a :: l, bs, h, hg => by
    rw [List.mapM_cons] at h
    cases hf : f a with
    | none => simp [hf] at h
    | some b =>
      cases hm : l.mapM f with
      | none => simp [hf, hm] at h
      | some bs' =>
        simp [hf, hm] at h
        subst h
        rw [List.map_cons, hg a (by simp) b hf, mapM_map hm (fun x hx => hg x (by simp [hx]))]

theorem nodup_eraseDups {α : Type} [BEq α] [LawfulBEq α] (l : List α) : l.eraseDups.Nodup := by
  generalize hn : l.length = k
  induction k using Nat.strongRecOn generalizing l with
  | ind k ih =>
    cases l with
    | nil => simp
    | cons a l =>
      rw [List.eraseDups_cons, List.nodup_cons]
      refine ⟨fun h => ?_, ih _ ?_ _ rfl⟩
      · have := List.mem_eraseDups.1 h
        simp at this
      · subst hn
        exact Nat.lt_succ_of_le (List.length_filter_le ..)

theorem hint_hinted (tx : Texts V) (r : Reader V) : valueHint tx r ≠ [] ↔ Hinted tx r := by
  cases r with
  | flag => simp [valueHint, Hinted]
  | text conv => simp [valueHint, Hinted]

theorem nameAndHint_none (tx : Texts V) (names : List Text) (r : Reader V) :
    nameAndHint names (valueHint tx r) = none ↔ LongOnly names ∧ Hinted tx r := by
  rw [← hint_hinted, ← shortName_none]
  unfold nameAndHint
  by_cases h : valueHint tx r = []
  · simp [h]
  · simp only [List.isEmpty_iff, h, if_false, ne_eq, not_false_eq_true, and_true]
    cases shortName names <;> simp

theorem fieldTokens_none (tx : Texts V) (fs : List (FieldDef V)) :
    fieldTokens tx fs = none ↔ ∃ f ∈ fs, LongOnly f.names ∧ Hinted tx f.reader := by
  have h : fieldTokens tx fs = none ↔ (fs.filter (fun f => !fieldFlag f)).mapM (fieldToken tx) = none := by
    unfold fieldTokens
    cases (fs.filter (fun f => !fieldFlag f)).mapM (fieldToken tx) <;> simp
  rw [h, mapM_none]
  simp only [List.mem_filter, fieldToken, Option.map_eq_none_iff, nameAndHint_none]
  constructor
  · rintro ⟨f, ⟨hf, _⟩, h⟩
    exact ⟨f, hf, h⟩
  · rintro ⟨f, hf, h⟩
    refine ⟨f, ⟨hf, ?_⟩, h⟩
    obtain ⟨_, conv, hr, _⟩ := h
    simp [fieldFlag, hr]

theorem withFields_none (tx : Texts V) (t : Text) (fs : Option (List (FieldDef V))) :
    withFields tx t fs = none ↔ LongField tx fs := by
  unfold withFields LongField
  split
  · rename_i f fs
    have h := fieldTokens_none tx (f :: fs)
    cases hf : fieldTokens tx (f :: fs) with
    | none =>
      obtain ⟨g, hg, hh⟩ := h.1 hf
      simp only [true_iff]
      exact ⟨f :: fs, g, rfl, hg, hh⟩
    | some ts =>
      simp only [reduceCtorEq, false_iff]
      rintro ⟨l, g, e, hg, hh⟩
      cases e
      rw [h.2 ⟨g, hg, hh⟩] at hf
      exact absurd hf (by simp)
  · rename_i h
    simp only [reduceCtorEq, false_iff]
    rintro ⟨l, g, e, hg, _⟩
    cases l with
    | nil => simp at hg
    | cons f l => exact h f l e

/-- An option that takes a value, itself or one of its fields, and has long names only. -/
def LongOption (tx : Texts V) (o : OptDef V) : Prop := (LongOnly o.names ∧ Hinted tx o.reader) ∨ LongField tx o.fields

theorem optionToken_none (tx : Texts V) (o : OptDef V) : optionToken tx o = none ↔ LongOption tx o := by
  unfold optionToken LongOption
  have h := nameAndHint_none tx o.names o.reader
  cases hn : nameAndHint o.names (valueHint tx o.reader) with
  | none => simp [h.1 hn]
  | some t =>
    have h1 : ¬ (LongOnly o.names ∧ Hinted tx o.reader) := by rw [← h, hn]; simp
    have h2 := withFields_none tx t o.fields
    simp only [h1, false_or, ← h2]
    cases withFields tx t o.fields <;> simp

theorem optionTokens_none (tx : Texts V) (os : List (OptDef V)) : optionTokens tx os = none ↔ ∃ o ∈ os, LongOption tx o := by
  have h : optionTokens tx os = none ↔ (os.filter (fun o => !combinable o)).mapM (optionToken tx) = none := by
    unfold optionTokens
    cases (os.filter (fun o => !combinable o)).mapM (optionToken tx) <;> simp
  rw [h, mapM_none]
  simp only [List.mem_filter, optionToken_none]
  constructor
  · rintro ⟨f, ⟨hf, _⟩, h⟩
    exact ⟨f, hf, h⟩
  · rintro ⟨o, ho, h⟩
    refine ⟨o, ⟨ho, ?_⟩, h⟩
    rcases h with ⟨_, conv, hr, _⟩ | ⟨l, f, hl, _⟩
    · simp [combinable, OptDef.isFlag, hr]
    · simp [combinable, hl]

theorem groupToken_none (tx : Texts V) (os : List (OptDef V)) (g : Text) :
    groupToken tx os g = none ↔ ∃ o ∈ os, group o = some g ∧ LongOption tx o := by
  have h : groupToken tx os g = none ↔ optionTokens tx (os.filter (fun o => group o == some g)) = none := by
    unfold groupToken
    cases optionTokens tx (os.filter (fun o => group o == some g)) <;> simp
  rw [h, optionTokens_none]
  simp [List.mem_filter, and_assoc]

theorem posTokens_none (tx : Texts V) (p : PosDef V) : posTokens tx p = none ↔ LongField tx p.fields := by
  have h := withFields_none tx [] p.fields
  rw [← h]
  unfold posTokens withFields
  split
  · rename_i f fs _
    cases fieldTokens tx (f :: fs) <;> simp
  · simp

/-! ### What the usage mentions -/

/-- The names of the options are there and without brackets. -/
def NamesBare (os : List (OptDef V)) : Prop := ∀ o ∈ os, o.names ≠ [] ∧ ∀ m ∈ o.names, Unbracketed m

/-- A part of a token that mentions an option and survives `stripBrackets`. -/
def TokenFor (tk : Text) (o : OptDef V) : Prop :=
  ∃ s, Unbracketed s ∧ PartOf s tk ∧ ∃ m ∈ o.names, s = m ∨ ∃ d c ls, m = [d, c] ∧ c ∈ ls ∧ s = '-' :: ls

theorem TokenFor.strip {tk : Text} {o : OptDef V} : TokenFor tk o → TokenFor (stripBrackets tk) o := by
  rintro ⟨s, hs, hp, h⟩
  exact ⟨s, hs, part_strip hs hp, h⟩

theorem TokenFor.within {tk u : Text} {o : OptDef V} (hu : PartOf tk u) : TokenFor tk o → TokenFor u o := by
  rintro ⟨s, hs, hp, h⟩
  exact ⟨s, hs, part_trans hp hu, h⟩

theorem TokenFor.mentions {tk : Text} {o : OptDef V} : TokenFor tk o → MentionsOption tk o := by
  rintro ⟨s, hs, hp, m, hm, h⟩
  refine ⟨m, hm, ?_⟩
  rcases h with rfl | ⟨d, c, ls, rfl, hc, rfl⟩
  · exact .inl hp
  · exact .inr ⟨d, c, ls, rfl, hc, hp⟩

theorem length_two {n : Text} (h : n.length = 2) : ∃ d c, n = [d, c] := by
  match n, h with
  | [d, c], _ => exact ⟨d, c, rfl⟩

theorem mem_letters {flags : List (List Text)} {c : Char} : c ∈ letters flags ↔ ∃ ns ∈ flags, ∃ d, shortest ns = [d, c] := by
  unfold letters
  rw [List.mem_filterMap]
  constructor
  · rintro ⟨ns, hns, h⟩
    split at h
    · rename_i h2
      obtain ⟨d, e, he⟩ := length_two h2
      rw [he] at h
      simp at h
      exact ⟨ns, hns, d, h ▸ he⟩
    · exact absurd h (by simp)
  · rintro ⟨ns, hns, d, h⟩
    exact ⟨ns, hns, by simp [h]⟩

theorem flagTokens_mention {os : List (OptDef V)} (hb : NamesBare os) {o : OptDef V} (ho : o ∈ os) :
    ∃ tk ∈ flagTokens (os.map (·.names)), TokenFor tk o := by
  have hm := shortest_mem (hb o ho).1
  unfold flagTokens
  by_cases h2 : (shortest o.names).length = 2
  · obtain ⟨d, c, he⟩ := length_two h2
    have hc : c ∈ letters (os.map (·.names)) := mem_letters.2 ⟨o.names, List.mem_map.2 ⟨o, ho, rfl⟩, d, he⟩
    have hne : (letters (os.map (·.names))).isEmpty = false := by
      cases hl : letters (os.map (·.names)) with
      | nil => rw [hl] at hc; simp at hc
      | cons _ _ => rfl
    refine ⟨bracket ('-' :: letters (os.map (·.names))), by simp [hne], '-' :: letters (os.map (·.names)), ?_,
      part_bracket (part_refl _), shortest o.names, hm, .inr ⟨d, c, _, he, hc, rfl⟩⟩
    have hl : ∀ x ∈ letters (os.map (·.names)), x ≠ '[' ∧ x ≠ ']' := by
      intro x hx
      obtain ⟨ns, hns, d', he'⟩ := mem_letters.1 hx
      obtain ⟨o', ho', rfl⟩ := List.mem_map.1 hns
      have := (hb o' ho').2 _ (shortest_mem (hb o' ho').1)
      rw [he'] at this
      obtain ⟨_, h1, h2⟩ := this
      simp at h1 h2
      exact ⟨fun e => h1.2 e.symm, fun e => h2.2 e.symm⟩
    refine ⟨by simp, ?_, ?_⟩
    · intro h
      rcases List.mem_cons.1 h with h | h
      · exact absurd h (by decide)
      · exact (hl _ h).1 rfl
    · intro h
      rcases List.mem_cons.1 h with h | h
      · exact absurd h (by decide)
      · exact (hl _ h).2 rfl
  · refine ⟨bracket (shortest o.names), ?_, shortest o.names, (hb o ho).2 _ hm, part_bracket (part_refl _), shortest o.names, hm, .inl rfl⟩
    rw [List.mem_append]
    left
    rw [List.mem_map]
    refine ⟨shortest o.names, ?_, rfl⟩
    rw [List.mem_filter]
    exact ⟨List.mem_map.2 ⟨o.names, List.mem_map.2 ⟨o, ho, rfl⟩, rfl⟩, by simpa using h2⟩

theorem part_dress {s t : Text} (r m : Bool) (h : PartOf s t) : PartOf s (dress r m t) := by
  unfold dress
  cases r <;> cases m <;> simp only [Bool.not_true, Bool.not_false, if_true, if_false, Bool.false_eq_true]
  · exact part_bracket h
  · exact part_left _ (part_bracket h)
  · exact h
  · exact part_left _ (part_cons _ (part_left _ h))

/-- The token of an option: its short name, then its hint and fields, and around them the brackets. -/
theorem optionToken_form {tx : Texts V} {o : OptDef V} {tk : Text} (h : optionToken tx o = some tk) (hs : ¬ LongOnly o.names) :
    ∃ s ∈ o.names, ∃ r, tk = dress o.default.isNone o.repeatable (s ++ r) := by
  rw [← shortName_none] at hs
  cases hn : shortName o.names with
  | none => exact absurd hn hs
  | some s =>
    refine ⟨s, shortName_some hn, ?_⟩
    unfold optionToken at h
    have h1 : ∃ r, nameAndHint o.names (valueHint tx o.reader) = some (s ++ r) := by
      unfold nameAndHint
      by_cases he : (valueHint tx o.reader).isEmpty
      · exact ⟨[], by simp [he, hn]⟩
      · simp only [he, hn]
        exact ⟨_, rfl⟩
    obtain ⟨r, hr⟩ := h1
    rw [hr] at h
    dsimp only at h
    have h2 : ∀ t, withFields tx (s ++ r) o.fields = some t → ∃ r', t = s ++ r' := by
      intro t ht
      unfold withFields at ht
      split at ht
      · split at ht
        · exact absurd ht (by simp)
        · simp only [Option.some.injEq] at ht
          exact ⟨_, by rw [← ht, List.append_assoc]⟩
      · simp only [Option.some.injEq] at ht
        exact ⟨r, ht.symm⟩
    cases hw : withFields tx (s ++ r) o.fields with
    | none => rw [hw] at h; exact absurd h (by simp)
    | some t =>
      rw [hw] at h
      obtain ⟨r', rfl⟩ := h2 t hw
      simp only [Option.some.injEq] at h
      exact ⟨r', h.symm⟩

theorem optionTokens_mention {tx : Texts V} {os : List (OptDef V)} {ts : List Text} (h : optionTokens tx os = some ts)
    (hb : NamesBare os) {o : OptDef V} (ho : o ∈ os) (hc : combinable o = true ∨ ¬ LongOnly o.names) :
    ∃ tk ∈ ts, TokenFor tk o ∧ (combinable o = false → optionToken tx o = some tk) := by
  unfold optionTokens at h
  cases hm : (os.filter (fun o => !combinable o)).mapM (optionToken tx) with
  | none => rw [hm] at h; exact absurd h (by simp)
  | some others =>
    rw [hm] at h
    simp only [Option.some.injEq] at h
    subst h
    by_cases hcomb : combinable o = true
    · obtain ⟨tk, htk, hf⟩ := flagTokens_mention (os := os.filter combinable)
        (fun x hx => hb x (List.mem_filter.1 hx).1) (List.mem_filter.2 ⟨ho, hcomb⟩)
      exact ⟨tk, by simp [htk], hf, by simp [hcomb]⟩
    · have hs : ¬ LongOnly o.names := hc.resolve_left hcomb
      obtain ⟨tk, htk, hf⟩ := mapM_some hm o (List.mem_filter.2 ⟨ho, by simpa using hcomb⟩)
      refine ⟨tk, by simp [htk], ?_, fun _ => hf⟩
      obtain ⟨s, hsm, r, rfl⟩ := optionToken_form hf hs
      exact ⟨s, (hb o ho).2 s hsm, part_dress _ _ (part_left _ (part_refl _)), s, hsm, .inl rfl⟩

/-- The tokens of the usage in their parts. -/
theorem usage_parts {tx : Texts V} {path : List Text} {n : Node V} {u : Text} (h : usage tx path n = some u) :
    ∃ free groups pos, optionTokens tx ((shown n.options).filter (fun o => (group o).isNone)) = some free ∧
      ((shown n.options).filterMap group).eraseDups.mapM (groupToken tx (shown n.options)) = some groups ∧
      n.positional.mapM (posTokens tx) = some pos ∧
      usageTokens tx n = some (free ++ groups ++ pos.flatten ++ subTokens n) ∧
      u = "Usage: ".toList ++ (joinWith [' '] path ++ (' ' :: joinWith [' '] (free ++ groups ++ pos.flatten ++ subTokens n))) := by
  unfold usage at h
  rw [Option.map_eq_some_iff] at h
  obtain ⟨ts, ht, rfl⟩ := h
  have ht0 := ht
  unfold usageTokens at ht
  dsimp only at ht
  generalize h1 : optionTokens tx ((shown n.options).filter (fun o => (group o).isNone)) = a at ht
  generalize h2 : ((shown n.options).filterMap group).eraseDups.mapM (groupToken tx (shown n.options)) = b at ht
  generalize h3 : n.positional.mapM (posTokens tx) = c at ht
  cases a <;> cases b <;> cases c <;> simp only [reduceCtorEq, Option.some.injEq] at ht
  subst ht
  exact ⟨_, _, _, rfl, rfl, rfl, ht0, rfl⟩

theorem part_usage {tk : Text} {ts : List Text} (pre path : Text) (h : tk ∈ ts) :
    PartOf tk (pre ++ (path ++ (' ' :: joinWith [' '] ts))) :=
  part_right _ (part_right _ (part_cons _ (part_join _ h)))

theorem shown_sub {opts : List (OptDef V)} {o : OptDef V} (h : o ∈ shown opts) : o ∈ opts := by
  obtain ⟨key, b, a, rfl, _⟩ := (mem_shown opts o).1 h
  simp

theorem part_closeLast (close : Text) {t : Text} : ∀ {ts : List Text}, t ∈ ts → ∃ t' ∈ closeLast close ts, PartOf t t'
  | [], h => by simp at h
  | [u], h => by
    simp at h; subst h
    exact ⟨t ++ close, by simp [closeLast], part_left _ (part_refl _)⟩
  | u :: v :: ts, h => by
    rcases List.mem_cons.1 h with h1 | h1
    · exact ⟨u, by simp [closeLast], h1 ▸ part_refl _⟩
    · obtain ⟨t', ht', hp⟩ := part_closeLast close h1
      exact ⟨t', by simp [closeLast, ht'], hp⟩

/-! ### The overview -/

theorem part_entry {header help s : Text} (h : PartOf s header ∨ s = help) : ∃ l ∈ entry header help, PartOf s l := by
  unfold entry
  rcases h with h | rfl
  · exact ⟨_, List.mem_cons_self .., part_cons _ (part_cons _ h)⟩
  · cases s with
    | nil => exact ⟨_, List.mem_cons_self .., ⟨[], _, rfl⟩⟩
    | cons c s => exact ⟨"      ".toList ++ (c :: s), by simp, part_right _ (part_refl _)⟩

/-! ### Flags typed together -/

theorem shorts_joined (off : V) (opts : List (OptDef V)) (find : Char → OptDef V) (buf : List Text) : ∀ (ls : Text) (args : Args V),
    (∀ c ∈ ls, findOption off opts ['-', c] = some (find c) ∧ (find c).isFlag = true ∧ (find c).fields = none) →
    shorts off opts ls none args buf = .ok (ls.foldl (fun d c => d.put (find c).name .flag) args, buf)
  | [], args, h => rfl
  | c :: ls, args, h => by
    obtain ⟨h1, h2, h3⟩ := h c (by simp)
    rw [shorts, h1]
    simp only [h2, if_true, h3, readFields]
    rw [shorts_joined off opts find buf ls _ (fun x hx => h x (by simp [hx]))]
    rfl

theorem put_flags_get (f : Char → Text) : ∀ (ls : Text) (args : Args V) (k : Text),
    (ls.foldl (fun d c => Dict.put d (f c) (Arg.flag (V := V))) args).get k =
      if ∃ c ∈ ls, f c = k then some .flag else args.get k
  | [], args, k => by simp
  | c :: ls, args, k => by
    rw [List.foldl_cons, put_flags_get f ls _ k, Dict.get_put]
    by_cases h : ∃ c ∈ ls, f c = k
    · have : ∃ x ∈ c :: ls, f x = k := by
        obtain ⟨x, hx, e⟩ := h
        exact ⟨x, by simp [hx], e⟩
      rw [if_pos h, if_pos this]
    · by_cases hc : f c = k
      · rw [if_neg h, if_pos hc, if_pos ⟨c, by simp, hc⟩]
      · rw [if_neg h, if_neg hc, if_neg]
        rintro ⟨x, hx, e⟩
        rcases List.mem_cons.1 hx with rfl | hx
        · exact hc e
        · exact h ⟨x, hx, e⟩

theorem own_named {opts : List (OptDef V)} (own : OwnNames opts) {o : OptDef V} (ho : o ∈ opts) {key : Text} (hk : key ∈ o.names) :
    NamedBy opts o key := by
  obtain ⟨a, b, e⟩ := List.append_of_mem ho
  refine ⟨a, b, e, hk, ?_⟩
  intro o' ho' hk'
  have := own.2
  rw [e, List.pairwise_append, List.pairwise_cons] at this
  exact this.2.1.1 o' ho' key hk hk'

end Help

open Help

/-- C109: the help lists an option exactly if the user can give it, that is, if one of its names means this option; and
what the user types by such a name is this option. -/
theorem help_lists_accepted {V : Type} (off : V) (opts : List (OptDef V)) (o : OptDef V) :
    (o ∈ shown opts ↔ ∃ key, NamedBy opts o key) ∧
    ∀ key, NamedBy opts o key → findOption off opts key = some o := by
  refine ⟨mem_shown opts o, ?_⟩
  rintro key ⟨b, a, rfl, hm, ha⟩
  unfold findOption
  rw [List.reverse_append, List.reverse_cons, List.find?_append, List.find?_append]
  have h1 : a.reverse.find? (fun o => decide (key ∈ o.names)) = none := by
    rw [List.find?_eq_none]
    intro x hx
    simpa using ha x (by simpa using hx)
  simp [h1, hm]

/-- C109: if the names of the options differ, every option is listed, once and in the order of the command. -/
theorem help_lists_all {V : Type} (opts : List (OptDef V)) (h : OwnNames opts) : shown opts = opts := by
  unfold shown
  rw [shown_numbers opts opts.reverse (by simp) h, filterMap_range]

/-- C109: the usage is printed unless an option that the help lists, or a field of one or of a positional argument,
takes a value and has long names only. -/
theorem usage_fails_iff {V : Type} (tx : Texts V) (path : List Text) (n : Node V) :
    usage tx path n = none ↔
      (∃ o ∈ shown n.options, (LongOnly o.names ∧ Hinted tx o.reader) ∨ LongField tx o.fields) ∨
      ∃ p ∈ n.positional, LongField tx p.fields := by
  have hu : usage tx path n = none ↔ usageTokens tx n = none := by
    unfold usage
    simp
  have h1 := optionTokens_none tx ((shown n.options).filter (fun o => (group o).isNone))
  have h2 := mapM_none (f := groupToken tx (shown n.options)) (l := ((shown n.options).filterMap group).eraseDups)
  have h3 := mapM_none (f := posTokens tx) (l := n.positional)
  simp only [groupToken_none, posTokens_none] at h2 h3
  have ht : usageTokens tx n = none ↔
      optionTokens tx ((shown n.options).filter (fun o => (group o).isNone)) = none ∨
      ((shown n.options).filterMap group).eraseDups.mapM (groupToken tx (shown n.options)) = none ∨
      n.positional.mapM (posTokens tx) = none := by
    unfold usageTokens
    dsimp only
    generalize optionTokens tx ((shown n.options).filter (fun o => (group o).isNone)) = a
    generalize ((shown n.options).filterMap group).eraseDups.mapM (groupToken tx (shown n.options)) = b
    generalize n.positional.mapM (posTokens tx) = c
    cases a <;> cases b <;> cases c <;> simp
  rw [hu, ht, h1, h2, h3]
  constructor
  · rintro (⟨o, ho, h⟩ | ⟨g, hg, o, ho, _, h⟩ | h)
    · exact .inl ⟨o, (List.mem_filter.1 ho).1, h⟩
    · exact .inl ⟨o, ho, h⟩
    · exact .inr h
  · rintro (⟨o, ho, h⟩ | h)
    · cases hg : group o with
      | none => exact .inl ⟨o, List.mem_filter.2 ⟨ho, by simp [hg]⟩, h⟩
      | some g =>
        refine .inr (.inl ⟨g, ?_, o, ho, hg, h⟩)
        rw [List.mem_eraseDups, List.mem_filterMap]
        exact ⟨o, ho, hg⟩
    · exact .inr (.inr h)

/-- C109: the usage mentions every listed option. Missing: options with long names only that are no plain flags, for
which it fails or prints `None`. -/
theorem usage_mentions_partial {V : Type} (tx : Texts V) (path : List Text) (n : Node V) (u : Text)
    (h : usage tx path n = some u) (bare : ∀ o ∈ n.options, o.names ≠ [] ∧ ∀ m ∈ o.names, Unbracketed m)
    (o : OptDef V) (ho : o ∈ shown n.options) (hs : (o.isFlag = true ∧ o.fields = none) ∨ ¬ LongOnly o.names) :
    MentionsOption u o := by
  obtain ⟨free, groups, pos, h1, h2, h3, _, rfl⟩ := usage_parts h
  have hb : ∀ (p : OptDef V → Bool), NamesBare ((shown n.options).filter p) :=
    fun p x hx => bare x (shown_sub (List.mem_filter.1 hx).1)
  have hc : combinable o = true ∨ ¬ LongOnly o.names := by
    rcases hs with ⟨h1, h2⟩ | h
    · left; simp [combinable, h1, h2]
    · exact .inr h
  cases hg : group o with
  | none =>
    obtain ⟨tk, htk, hf, _⟩ := optionTokens_mention h1 (hb _) (List.mem_filter.2 ⟨ho, by simp [hg]⟩) hc
    exact (hf.within (part_usage _ _ (by simp [htk]))).mentions
  | some g =>
    have hmem : g ∈ ((shown n.options).filterMap group).eraseDups := by
      rw [List.mem_eraseDups, List.mem_filterMap]
      exact ⟨o, ho, hg⟩
    obtain ⟨tk, htk, hgt⟩ := mapM_some h2 g hmem
    unfold groupToken at hgt
    cases ht : optionTokens tx ((shown n.options).filter (fun o => group o == some g)) with
    | none => rw [ht] at hgt; exact absurd hgt (by simp)
    | some ts =>
      rw [ht] at hgt
      simp only [Option.some.injEq] at hgt
      subst hgt
      obtain ⟨tk, htk', hf, _⟩ := optionTokens_mention ht (hb _) (List.mem_filter.2 ⟨ho, by simp [hg]⟩) hc
      have : PartOf (stripBrackets tk) (bracket (joinWith [' ', '|', ' '] (ts.map stripBrackets))) :=
        part_bracket (part_join _ (List.mem_map.2 ⟨tk, htk', rfl⟩))
      exact ((hf.strip.within this).within (part_usage _ _ (by simp [htk]))).mentions

/-- C109: the usage tells which options are required: an option that takes a value, outside of groups, is in square
brackets exactly if it can be left out. -/
theorem usage_says_required {V : Type} (tx : Texts V) (path : List Text) (n : Node V) (u : Text)
    (h : usage tx path n = some u) (bare : ∀ o ∈ n.options, o.names ≠ [] ∧ ∀ m ∈ o.names, Unbracketed m)
    (o : OptDef V) (ho : o ∈ shown n.options) (hv : o.isFlag = false) (hg : o.mutex = none) (hs : ¬ LongOnly o.names) :
    ∃ before tk after, u = "Usage: ".toList ++ (joinWith [' '] path ++ (' ' :: joinWith [' '] (before ++ tk :: after))) ∧
      MentionsOption tk o ∧ (tk.head? = some '[' ↔ ∃ v, o.default = some v) := by
  obtain ⟨free, groups, pos, h1, h2, h3, _, rfl⟩ := usage_parts h
  have hb : NamesBare ((shown n.options).filter (fun o => (group o).isNone)) :=
    fun x hx => bare x (shown_sub (List.mem_filter.1 hx).1)
  have hcomb : combinable o = false := by simp [combinable, hv]
  obtain ⟨tk, htk, hf, ht⟩ := optionTokens_mention h1 hb (List.mem_filter.2 ⟨ho, by simp [group, hg]⟩) (.inr hs)
  obtain ⟨a, b, e⟩ := List.append_of_mem htk
  refine ⟨a, tk, b ++ groups ++ pos.flatten ++ subTokens n, by simp [e], hf.mentions, ?_⟩
  obtain ⟨s, hsm, r, e'⟩ := optionToken_form (ht hcomb) hs
  obtain ⟨h0, hl, _⟩ := (bare o (shown_sub ho)).2 s hsm
  subst e'
  cases s with
  | nil => exact absurd rfl h0
  | cons c s =>
    have hc : c ≠ '[' := fun e => hl (by simp [e])
    cases hd : o.default with
    | none => cases o.repeatable <;> simp [dress, hc]
    | some v => cases o.repeatable <;> simp [dress, bracket]

/-- C109: the groups of the usage are the groups of the options: an option without a group is listed on its own, and the
options of each group, listed as if they were alone and without their brackets, are alternatives in one pair of brackets. -/
theorem usage_groups {V : Type} (tx : Texts V) (path : List Text) (n : Node V) (u : Text) (h : usage tx path n = some u) :
    ∃ (free : List Text) (names : List Text) (alternatives : Text → List Text) (rest : List Text),
      optionTokens tx ((shown n.options).filter (fun o => o.mutex == none || o.mutex == some [])) = some free ∧
      names.Nodup ∧ (∀ g, g ∈ names ↔ g ≠ [] ∧ ∃ o ∈ shown n.options, o.mutex = some g) ∧
      (∀ g ∈ names, optionTokens tx ((shown n.options).filter (fun o => o.mutex == some g)) = some (alternatives g)) ∧
      u = "Usage: ".toList ++ (joinWith [' '] path ++ (' ' :: joinWith [' '] (free ++
        names.map (fun g => ['['] ++ joinWith " | ".toList ((alternatives g).map stripBrackets) ++ [']']) ++ rest))) := by
  obtain ⟨free, groups, pos, h1, h2, h3, _, rfl⟩ := usage_parts h
  have hgrp : ∀ (o : OptDef V) (g : Text), group o = some g ↔ g ≠ [] ∧ o.mutex = some g := by
    intro o g
    unfold group
    split
    · rename_i c cs e
      rw [e]
      constructor
      · intro h'; cases h'; exact ⟨by simp, rfl⟩
      · intro h'; exact h'.2
    · rename_i hno
      constructor
      · intro h'; cases h'
      · rintro ⟨hne, e⟩
        cases g with
        | nil => exact absurd rfl hne
        | cons c cs => exact absurd e (hno c cs)
  have hfree : (fun o : OptDef V => (group o).isNone) = fun o => o.mutex == none || o.mutex == some [] := by
    funext o
    unfold group
    cases hm : o.mutex with
    | none => rfl
    | some g => cases g <;> rfl
  refine ⟨free, ((shown n.options).filterMap group).eraseDups,
    fun g => (optionTokens tx ((shown n.options).filter (fun o => o.mutex == some g))).getD [], pos.flatten ++ subTokens n,
    by rw [← hfree]; exact h1, nodup_eraseDups _, ?_, ?_, ?_⟩
  · intro g
    rw [List.mem_eraseDups, List.mem_filterMap]
    constructor
    · rintro ⟨o, ho, hg⟩
      exact ⟨((hgrp o g).1 hg).1, o, ho, ((hgrp o g).1 hg).2⟩
    · rintro ⟨hne, o, ho, hm⟩
      exact ⟨o, ho, (hgrp o g).2 ⟨hne, hm⟩⟩
  all_goals
    have same : ∀ g ∈ ((shown n.options).filterMap group).eraseDups,
        (shown n.options).filter (fun o => group o == some g) = (shown n.options).filter (fun o => o.mutex == some g) := by
      intro g hg
      obtain ⟨o', _, hg'⟩ := List.mem_filterMap.1 (List.mem_eraseDups.1 hg)
      refine List.filter_congr fun o _ => ?_
      have := hgrp o g
      have hne := ((hgrp o' g).1 hg').1
      by_cases hm : o.mutex = some g
      · rw [hm, this.2 ⟨hne, hm⟩]
      · have hg' : group o ≠ some g := fun e => hm (this.1 e).2
        rw [beq_eq_false_iff_ne.2 hg', beq_eq_false_iff_ne.2 hm]
  · intro g hg
    obtain ⟨tk, _, hgt⟩ := mapM_some h2 g hg
    unfold groupToken at hgt
    rw [same g hg] at hgt
    cases ht : optionTokens tx ((shown n.options).filter (fun o => o.mutex == some g)) with
    | none => rw [ht] at hgt; exact absurd hgt (by simp)
    | some ts => simp only [ht, Option.getD_some]
  · have : groups = (((shown n.options).filterMap group).eraseDups).map (fun g => ['['] ++ joinWith " | ".toList
        (((optionTokens tx ((shown n.options).filter (fun o => o.mutex == some g))).getD []).map stripBrackets) ++ [']']) := by
      refine mapM_map h2 ?_
      intro g hg tk hgt
      unfold groupToken at hgt
      rw [same g hg] at hgt
      cases ht : optionTokens tx ((shown n.options).filter (fun o => o.mutex == some g)) with
      | none => rw [ht] at hgt; exact absurd hgt (by simp)
      | some ts =>
        rw [ht] at hgt
        simp only [Option.some.injEq] at hgt
        rw [← hgt]; rfl
    rw [this]
    simp only [List.append_assoc]

/-- C109: the usage mentions every positional argument, and that there are sub-commands. -/
theorem usage_mentions_arguments {V : Type} (tx : Texts V) (path : List Text) (n : Node V) (u : Text)
    (h : usage tx path n = some u) :
    (∀ p ∈ n.positional, PartOf (tx.label p) u) ∧ (n.children ≠ [] → PartOf "SUB_COMMAND".toList u) := by
  obtain ⟨free, groups, pos, h1, h2, h3, _, rfl⟩ := usage_parts h
  constructor
  · intro p hp
    obtain ⟨ts, hts, hpt⟩ := mapM_some h3 p hp
    have : ∃ tk ∈ ts, PartOf (tx.label p) tk := by
      unfold posTokens at hpt
      split at hpt
      · split at hpt
        · exact absurd hpt (by simp)
        · rename_i ts' _
          simp only [Option.some.injEq] at hpt
          subst hpt
          obtain ⟨t', ht', hp'⟩ := part_closeLast [if p.default.isNone then '>' else ']']
            (t := (if p.default.isNone then '<' else '[') :: tx.label p)
            (ts := ((if p.default.isNone then '<' else '[') :: tx.label p) :: ts') (by simp)
          exact ⟨t', List.mem_append_left _ ht', part_trans (part_cons _ (part_refl _)) hp'⟩
      · simp only [Option.some.injEq] at hpt
        subst hpt
        refine ⟨_, List.mem_cons_self .., ?_⟩
        split
        · exact part_refl _
        · exact part_bracket (part_refl _)
    obtain ⟨tk, htk, hp'⟩ := this
    refine part_trans hp' (part_usage _ _ ?_)
    simp only [List.mem_append, List.mem_flatten]
    exact .inl (.inr ⟨ts, hts, htk⟩)
  · intro hc
    have hne : n.children.isEmpty = false := by
      cases hx : n.children with
      | nil => exact absurd hx hc
      | cons _ _ => rfl
    have : ∃ tk ∈ subTokens n, PartOf "SUB_COMMAND".toList tk := by
      unfold subTokens
      rw [hne]
      refine ⟨_, List.mem_cons_self .., ?_⟩
      split
      · exact ⟨['['], [']'], by decide⟩
      · exact part_refl _
    obtain ⟨tk, htk, hp⟩ := this
    exact part_trans hp (part_usage _ _ (by simp [htk]))

/-- C109: the overview of the arguments has the names, the hint and the help text of every listed option and of every
positional argument, and every sub-command with its description. -/
theorem overview_mentions {V : Type} (tx : Texts V) (n : Node V) :
    (∀ o ∈ shown n.options, (∀ m ∈ o.names, PartOf m (overview tx n)) ∧ PartOf (tx.optHelp o) (overview tx n) ∧
      ∀ conv, o.reader = .text conv → PartOf (tx.hint conv) (overview tx n)) ∧
    (∀ p ∈ n.positional, PartOf p.name (overview tx n) ∧ PartOf (tx.posHelp p) (overview tx n) ∧
      PartOf (tx.hint p.conv) (overview tx n)) ∧
    ∀ c ∈ n.children, PartOf c.1 (overview tx n) ∧ ∀ d, c.2.cmd = some d → PartOf (tx.desc d) (overview tx n) := by
  have line : ∀ {l s : Text}, l ∈ overviewLines tx n → PartOf s l → PartOf s (overview tx n) :=
    fun hl hp => part_trans hp (part_join _ hl)
  refine ⟨?_, ?_, ?_⟩
  · intro o ho
    have hne : (shown n.options).isEmpty = false := by
      cases hx : shown n.options with
      | nil => rw [hx] at ho; simp at ho
      | cons _ _ => rfl
    have key : ∀ s, PartOf s (optHeader tx o) ∨ s = tx.optHelp o → PartOf s (overview tx n) := by
      intro s hs
      obtain ⟨l, hl, hp⟩ := part_entry hs
      refine line ?_ hp
      unfold overviewLines
      simp only [hne]
      refine List.mem_append_left _ (List.mem_append_left _ (List.mem_cons_of_mem _ ?_))
      exact List.mem_flatMap.2 ⟨o, ho, hl⟩
    have hd : ∀ m ∈ o.names, PartOf m (optHeader tx o) := by
      intro m hm
      have hj : PartOf m (displayName o.names) := part_join _ (mem_definedNames.2 hm)
      unfold optHeader
      split
      · exact hj
      · exact part_left _ hj
    refine ⟨fun m hm => key m (.inl (hd m hm)), key _ (.inr rfl), ?_⟩
    intro conv hr
    refine key _ (.inl ?_)
    have hf : o.isFlag = false := by simp [OptDef.isFlag, hr]
    simp only [optHeader, hf, hr, valueHint]
    exact part_right _ (part_right _ (part_left _ (part_refl _)))
  · intro p hp
    have hne : n.positional.isEmpty = false := by
      cases hx : n.positional with
      | nil => rw [hx] at hp; simp at hp
      | cons _ _ => rfl
    have key : ∀ s, PartOf s (posHeader tx p) ∨ s = tx.posHelp p → PartOf s (overview tx n) := by
      intro s hs
      obtain ⟨l, hl, hp'⟩ := part_entry hs
      refine line ?_ hp'
      unfold overviewLines
      simp only [hne]
      refine List.mem_append_left _ (List.mem_append_right _ (List.mem_cons_of_mem _ ?_))
      exact List.mem_flatMap.2 ⟨p, hp, hl⟩
    refine ⟨key _ (.inl (part_left _ (part_refl _))), key _ (.inr rfl), key _ (.inl ?_)⟩
    exact part_right _ (part_right _ (part_left _ (part_refl _)))
  · intro c hc
    have hne : n.children.isEmpty = false := by
      cases hx : n.children with
      | nil => rw [hx] at hc; simp at hc
      | cons _ _ => rfl
    have key : ∀ s, PartOf s (subLine tx (longest (n.children.map (·.1)) + 2) c) → PartOf s (overview tx n) := by
      intro s hs
      refine line ?_ hs
      unfold overviewLines
      simp only [hne]
      refine List.mem_append_right _ (List.mem_cons_of_mem _ ?_)
      exact List.mem_map.2 ⟨c, hc, rfl⟩
    refine ⟨key _ (part_cons _ (part_cons _ (part_left _ (part_left _ (part_refl _))))), ?_⟩
    intro d hd
    refine key _ (part_cons _ (part_cons _ (part_right _ (part_cons _ ?_))))
    rw [hd]
    exact part_refl _

/-- C109: the flags whose letters the usage joins can be typed together: any of the letters after a dash set exactly these
flags. The names differ, begin with a dash and can be typed. -/
theorem combined_flags_accepted {V : Type} (off : V) (opts : List (OptDef V)) (own : OwnNames opts)
    (dash : ∀ o ∈ opts, ∀ m ∈ o.names, NameOk m ∧ m ≠ ['-', '-'] ∧ m.head? = some '-')
    (flags : List (OptDef V)) (hfl : ∀ o ∈ flags, o ∈ shown opts ∧ o.isFlag = true ∧ o.fields = none)
    (ls : Text) (hne : ls ≠ []) (hls : ∀ c ∈ ls, c ∈ Help.letters (flags.map (·.names)))
    (args : Args V) (rest : List Text) :
    ∃ args', readOptionOrFlag off opts ('-' :: ls) rest args = .ok (args', rest) ∧
      ∀ k, args'.get k = if ∃ o ∈ flags, o.name = k ∧ ∃ c ∈ ls, ['-', c] ∈ o.names then some .flag else args.get k := by
  have hf : ∀ c ∈ ls, ∃ o ∈ flags, ['-', c] ∈ o.names := by
    intro c hc
    obtain ⟨ns, hns, d, e⟩ := mem_letters.1 (hls c hc)
    obtain ⟨o, ho, rfl⟩ := List.mem_map.1 hns
    have hmem := shown_sub (hfl o ho).1
    have hm := shortest_mem (own.1 o hmem)
    rw [e] at hm
    have := (dash o hmem _ hm).2.2
    simp at this
    exact ⟨o, ho, this ▸ hm⟩
  have hok : ∀ c ∈ ls, c ≠ '=' ∧ isSpace c = false ∧ c ≠ '-' := by
    intro c hc
    obtain ⟨o, ho, hm⟩ := hf c hc
    obtain ⟨⟨h1, _, h2⟩, h3, _⟩ := dash o (shown_sub (hfl o ho).1) _ hm
    refine ⟨fun e => h1 (by simp [e]), h2 c (by simp), fun e => h3 (by simp [e])⟩
  have hname : NameOk ('-' :: ls) := by
    refine ⟨?_, ?_, ?_⟩
    · intro h
      rcases List.mem_cons.1 h with h | h
      · exact absurd h (by decide)
      · exact (hok _ h).1 rfl
    · intro c hc
      simp at hc
      subst hc
      decide
    · intro c hc
      have : c ∈ ls := by
        cases ls with
        | nil => exact absurd rfl hne
        | cons d ls =>
          rw [List.getLast?_cons_cons] at hc
          exact List.mem_of_getLast? hc
      exact (hok c this).2.1
  have hall : ∀ c, ∃ o, c ∈ ls → o ∈ flags ∧ ['-', c] ∈ o.names := by
    intro c
    by_cases hc : c ∈ ls
    · obtain ⟨o, h⟩ := hf c hc
      exact ⟨o, fun _ => h⟩
    · exact ⟨helpOption off, fun h => absurd h hc⟩
  obtain ⟨find, hfind⟩ := Classical.axiomOfChoice hall
  refine ⟨ls.foldl (fun d c => d.put (find c).name .flag) args, ?_, ?_⟩
  · unfold readOptionOrFlag
    rw [optionKey_name _ hname]
    have hshort := shorts_joined off opts find rest ls args (by
      intro c hc
      obtain ⟨h1, h2⟩ := hfind c hc
      have h3 := hfl _ h1
      exact ⟨(help_lists_accepted off opts (find c)).2 _ (own_named own (shown_sub h3.1) h2), h3.2⟩)
    cases ls with
    | nil => exact absurd rfl hne
    | cons c ls =>
      have : c ≠ '-' := (hok c (by simp)).2.2
      dsimp only
      split
      · rename_i h
        simp only [List.cons.injEq, true_and] at h
        exact absurd h.1 this
      · rename_i h
        simp only [List.cons.injEq, true_and] at h
        subst h
        exact hshort
      · rename_i h
        exact absurd rfl (h _)
  · intro k
    rw [put_flags_get (fun c => (find c).name)]
    have : (∃ c ∈ ls, (find c).name = k) ↔ ∃ o ∈ flags, o.name = k ∧ ∃ c ∈ ls, ['-', c] ∈ o.names := by
      constructor
      · rintro ⟨c, hc, e⟩
        obtain ⟨h1, h2⟩ := hfind c hc
        exact ⟨find c, h1, e, c, hc, h2⟩
      · rintro ⟨o, ho, e, c, hc, hm⟩
        obtain ⟨h1, h2⟩ := hfind c hc
        refine ⟨c, hc, ?_⟩
        have a1 := (help_lists_accepted off opts (find c)).2 _ (own_named own (shown_sub (hfl _ h1).1) h2)
        have a2 := (help_lists_accepted off opts o).2 _ (own_named own (shown_sub (hfl _ ho).1) hm)
        rw [a1] at a2
        cases a2
        exact e
    by_cases h : ∃ c ∈ ls, (find c).name = k
    · rw [if_pos h, if_pos (this.1 h)]
    · rw [if_neg h, if_neg (fun x => h (this.2 x))]

/-! ### Violations and examples -/

namespace HelpExample

/-- Texts for the examples. -/
def tx : Texts Nat where
  hint := fun _ => t!"STR"
  label := fun p => p.name
  optHelp := fun _ => t!"help"
  posHelp := fun _ => []
  desc := fun _ => t!"text"

def flagOf (names : List Text) (name : Text) : OptDef Nat :=
  { names := names, name := name, default := some (.val 0), reader := .flag }

def conv : Text → Option Nat := fun t => some t.length

/-- `-v, --verbose`, `-q`, `-o, --out` with a field, `-m` required, a positional argument and a sub-command. -/
def node : Node Nat := .mk (some
  { options :=
      [flagOf [t!"-v", t!"--verbose"] t!"verbose", flagOf [t!"-q"] t!"q", flagOf [t!"--dry"] t!"dry",
       { names := [t!"-o", t!"--out"], name := t!"out", default := some (.val 0), reader := .text conv,
         fields := some [{ names := [t!"+w"], name := t!"w", default := none, reader := .text conv }] },
       { names := [t!"-m"], name := t!"m", default := none, repeatable := true, reader := .text conv }]
    positional := [{ name := t!"file", default := some (.val 0), extra := none, conv := conv }] })
  [(t!"sub", .mk none [])]

/-- A field of an option. -/
def fieldF : FieldDef Nat := { names := [t!"+f"], name := t!"f", default := some (.val 0), reader := .flag }

/-- An option with a flag as its field. -/
def fieldNode : Node Nat := .mk (some
  { options := [{ names := [t!"-x"], name := t!"x", default := some (.val 0), reader := .text conv, fields := some [fieldF] }]
    positional := [] }) []

end HelpExample
open HelpExample

example : usage tx [t!"pkm"] node =
    some t!"Usage: pkm [--dry] [-vq] [-o STR +w=STR] (-m STR)* [file] ... [SUB_COMMAND]" := by decide +kernel

example : overview tx node = ("Options: \n  -v, --verbose\n      help\n  -q\n      help\n  --dry\n      help\n  -o, --out <STR>\n" ++
    "      help\n  -m <STR>\n      help\n\nPositional Arguments: \n  file <STR>\n\nSub-Commands: \n  sub   ").toList := by decide +kernel

/-- Two groups and an option without a group. -/
example : usage HelpExample.tx [t!"pkm"] (.mk (some ⟨[{ flagOf [t!"-a"] t!"a" with mutex := some t!"g" }, flagOf [t!"-c"] t!"c",
      { flagOf [t!"--bb"] t!"b" with mutex := some t!"g" }, { flagOf [t!"--dd"] t!"d" with mutex := some t!"gh" },
      { flagOf [t!"-e"] t!"e" with mutex := some t!"gh" }], []⟩) []) =
    some t!"Usage: pkm [-c] [--bb | -a] [--dd | -e]" := by decide +kernel

/-- The hypotheses of the theorems hold of this command. -/
example : OwnNames node.options ∧ (∀ o ∈ node.options, o.names ≠ [] ∧ ∀ m ∈ o.names, Unbracketed m) ∧
    (∀ o ∈ node.options, ∀ m ∈ o.names, m ≠ ['-', '-'] ∧ m.head? = some '-') := by
  refine ⟨⟨?_, ?_⟩, ?_, ?_⟩ <;> simp [node, Node.options, Node.cmd, flagOf, Unbracketed]

/-- C109: the usage is not always printed: an option that takes a value and has no short name. -/
theorem usage_fails_violated : ∃ (tx : Texts Nat) (n : Node Nat),
    n.options.map (·.names) = [[t!"--name"]] ∧ OwnNames n.options ∧ usage tx [t!"pkm"] n = none := by
  refine ⟨HelpExample.tx, .mk (some ⟨[{ names := [t!"--name"], name := t!"name", default := some (.val 0), reader := .text conv }], []⟩) [],
    rfl, ?_, by decide +kernel⟩
  simp [OwnNames, Node.options, Node.cmd]

/-- C109: flags that exclude each other are shown as flags that can be joined, and the parser refuses what is shown. -/
theorem exclusive_joined_violated : ∃ (n : Node Nat), OwnNames n.options ∧
    usage HelpExample.tx [t!"pkm"] n = some t!"Usage: pkm [-ab]" ∧ parse 0 n [t!"-ab"] = .error (.exclusive t!"g") := by
  refine ⟨.mk (some ⟨[{ flagOf [t!"-a"] t!"a" with mutex := some t!"g" }, { flagOf [t!"-b"] t!"b" with mutex := some t!"g" }], []⟩) [],
    ?_, by decide +kernel, rfl⟩
  simp [OwnNames, Node.options, Node.cmd, flagOf]

/-- C109: a flag among the fields of an option is shown with a dash, and the parser accepts it with a plus sign only. -/
theorem field_flag_violated : ∃ (n : Node Nat),
    usage HelpExample.tx [t!"pkm"] n = some t!"Usage: pkm [-x STR [-f]]" ∧
    parse 0 n [t!"-x", t!"1", t!"-f"] = .error (.unknownOption t!"-f") ∧
    (∃ r, parse 0 n [t!"-x", t!"1", t!"+f"] = .ok r) := by
  exact ⟨fieldNode, by decide +kernel, rfl, ⟨_, rfl⟩⟩

/-- C109: the help does not list itself: the parser accepts `-h` and no help mentions it. -/
theorem help_unlisted_violated (off : Nat) (n : Node Nat) (h : ∀ o ∈ n.options, t!"-h" ∉ o.names) :
    findOption off n.options t!"-h" = some (helpOption off) ∧ ∀ o ∈ shown n.options, t!"-h" ∉ o.names := by
  refine ⟨?_, fun o ho => h o (shown_sub ho)⟩
  unfold findOption
  have : n.options.reverse.find? (fun o => decide (t!"-h" ∈ o.names)) = none := by
    rw [List.find?_eq_none]
    intro o ho
    simpa using h o (by simpa using ho)
  rw [this]
  rfl

/-- C109: if options share a name the usage shows it for the wrong one: `-a` is the letter of both, and means the second. -/
theorem shared_name_violated : ∃ (n : Node Nat) (a b : OptDef Nat), n.options = [a, b] ∧ a.name ≠ b.name ∧
    usage HelpExample.tx [t!"pkm"] n = some t!"Usage: pkm [-aa]" ∧ findOption 0 n.options t!"-a" = some b := by
  refine ⟨.mk (some ⟨[flagOf [t!"-a", t!"--all"] t!"all", flagOf [t!"-a", t!"--any"] t!"any"], []⟩) [], _, _, rfl, by decide +kernel,
    by decide +kernel, rfl⟩

/-- C109: commands made from functions are affected: after `a` and `b` no letter is left for `ab`. -/
theorem method_usage_violated : ∃ (s : Methods.Sig) (d : Methods.Def), s.kwonly.map (·.1) = [t!"a", t!"b", t!"ab"] ∧
    Methods.definition s = some d ∧ usage HelpExample.tx [t!"pkm"] (.mk (some ⟨d.opts conv 0, []⟩) []) = none := by
  refine ⟨⟨[], none, [(t!"a", .value), (t!"b", .value), (t!"ab", .value)]⟩, _, rfl, rfl, by decide +kernel⟩

end Cli
end Pkm
