import Verif.Toml.Blocks
set_option linter.unusedVariables false
set_option linter.unusedSimpArgs false
/-
What the blocks of a written table give when they are entered one after the other.
-/
namespace Pkm
open Toml Spec

namespace Spec

/-- Python's `==` on data: dictionaries are equal when they have the same keys with equal values, in any order. -/
inductive Equal : TV → TV → Prop
  | str (s : Text) : Equal (.str s) (.str s)
  | int (n : Int) : Equal (.int n) (.int n)
  | bool (b : Bool) : Equal (.bool b) (.bool b)
  | list (l m : List TV) : l.length = m.length →
      (∀ (i : Nat) (v w : TV), l[i]? = some v → m[i]? = some w → Equal v w) → Equal (.list l) (.list m)
  | table (a b : List (Text × TV)) : (∀ k, (Dict.get a k).isSome = (Dict.get b k).isSome) →
      (∀ (k : Text) (v w : TV), Dict.get a k = some v → Dict.get b k = some w → Equal v w) → Equal (.table a) (.table b)

end Spec

namespace Toml

/-! ### All blocks can be read -/

def Kept (v : TV) : Prop := v.isTable = true ∨ v.isTables = true

theorem kept_of_not_inline {level : Nat} {v : TV} (h : isInline level v = false) : Kept v := by
  cases v with
  | table t => exact Or.inl rfl
  | list l => right; simpa [isInline] using h
  | str s => simp [isInline] at h
  | int s => simp [isInline] at h
  | bool s => simp [isInline] at h

theorem kept_hidden {t : List (Text × TV)} (h : noAssignments t = true) : ∀ e ∈ t, Kept e.2 := by
  intro e he
  have := List.all_eq_true.1 h e he
  simpa [Kept] using this

def AllGood (bs : List Block) : Prop := ∀ b ∈ bs, GoodBlock b ∧ b.path ≠ []

theorem AllGood.append {a b : List Block} (ha : AllGood a) (hb : AllGood b) : AllGood (a ++ b) := by
  intro x hx
  rcases List.mem_append.1 hx with h | h
  · exact ha x h
  · exact hb x h

theorem goodBlock_own (item : Bool) (path : List Text) (level : Nat) (t : List (Text × TV)) (hp : ∀ k ∈ path, ReadableStr k)
    (hnd : (t.map Prod.fst).Nodup) (hk : ∀ e ∈ t, ReadableStr e.1) (hv : ∀ e ∈ t, Readable e.2) :
    GoodBlock ⟨item, path, own level t⟩ where
  keys := hp
  nodup := by
    have : (own level t).map Prod.fst = (t.filter (fun e => isInline (level + 1) e.2)).map Prod.fst := rfl
    rw [this]
    exact List.Nodup.sublist (List.Sublist.map _ List.filter_sublist) hnd
  own_keys := fun e he => hk e (List.mem_filter.1 he).1
  own_values := fun e he => hv e (List.mem_filter.1 he).1

theorem path_snoc {path : List Text} {k : Text} (hp : ∀ k ∈ path, ReadableStr k) (hk : ReadableStr k) :
    ∀ j ∈ path ++ [k], ReadableStr j := by
  intro j hj
  rcases List.mem_append.1 hj with h | h
  · exact hp j h
  · simp at h; subst h; exact hk

mutual
theorem subBlocks_good : ∀ (v : TV) (path : List Text) (level : Nat), Readable v → (∀ k ∈ path, ReadableStr k) → path ≠ [] →
    AllGood (subBlocks path level v)
  | .list l, path, level, hv, hp, hne => by
    cases hv with
    | list _ hl => unfold subBlocks; exact tablesBlocks_good l path (level + 1) hl hp hne
  | .table t, path, level, hv, hp, hne => by
    cases hv with
    | table _ _ hnd hk hl =>
      unfold subBlocks
      split
      · exact subsBlocks_good t true path level hk hl hp
      · intro b hb
        rcases List.mem_cons.1 hb with rfl | hb
        · exact ⟨goodBlock_own _ _ _ _ hp hnd hk hl, hne⟩
        · exact subsBlocks_good t false path level hk hl hp b hb
  | .str _, path, level, _, _, _ => by simp [subBlocks, AllGood]
  | .int _, path, level, _, _, _ => by simp [subBlocks, AllGood]
  | .bool _, path, level, _, _, _ => by simp [subBlocks, AllGood]
theorem subsBlocks_good : ∀ (es : List (Text × TV)) (hidden : Bool) (path : List Text) (level : Nat),
    (∀ e ∈ es, ReadableStr e.1) → (∀ e ∈ es, Readable e.2) → (∀ k ∈ path, ReadableStr k) →
    AllGood (subsBlocks hidden path level es)
  | [], hidden, path, level, _, _, _ => by simp [subsBlocks, AllGood]
  | (k, v) :: es, hidden, path, level, hk, hv, hp => by
    unfold subsBlocks
    refine AllGood.append ?_ (subsBlocks_good es hidden path level (fun e he => hk e (List.mem_cons_of_mem _ he))
      (fun e he => hv e (List.mem_cons_of_mem _ he)) hp)
    split
    · exact subBlocks_good v (path ++ [k]) (level + 1) (hv (k, v) (by simp)) (path_snoc hp (hk (k, v) (by simp))) (by simp)
    · simp [AllGood]
theorem tablesBlocks_good : ∀ (vs : List TV) (path : List Text) (level : Nat), (∀ v ∈ vs, Readable v) →
    (∀ k ∈ path, ReadableStr k) → path ≠ [] → AllGood (tablesBlocks path level vs)
  | [], path, level, _, _, _ => by simp [tablesBlocks, AllGood]
  | .table t :: vs, path, level, hv, hp, hne => by
    unfold tablesBlocks
    cases hv (.table t) (by simp) with
    | table _ _ hnd hk hl =>
      refine AllGood.append ?_ (tablesBlocks_good vs path level (fun v h => hv v (List.mem_cons_of_mem _ h)) hp hne)
      intro b hb
      rcases List.mem_cons.1 hb with rfl | hb
      · exact ⟨goodBlock_own _ _ _ _ hp hnd hk hl, hne⟩
      · exact subsBlocks_good t false path level hk hl hp b hb
  | .str _ :: vs, path, level, hv, hp, hne => by
    unfold tablesBlocks; exact tablesBlocks_good vs path level (fun v h => hv v (List.mem_cons_of_mem _ h)) hp hne
  | .int _ :: vs, path, level, hv, hp, hne => by
    unfold tablesBlocks; exact tablesBlocks_good vs path level (fun v h => hv v (List.mem_cons_of_mem _ h)) hp hne
  | .bool _ :: vs, path, level, hv, hp, hne => by
    unfold tablesBlocks; exact tablesBlocks_good vs path level (fun v h => hv v (List.mem_cons_of_mem _ h)) hp hne
  | .list _ :: vs, path, level, hv, hp, hne => by
    unfold tablesBlocks; exact tablesBlocks_good vs path level (fun v h => hv v (List.mem_cons_of_mem _ h)) hp hne
end

/-! ### The last block -/

def LastOk (bs : List Block) : Prop := ∀ b, bs.getLast? = some b → b.own ≠ []

theorem LastOk.append {a b : List Block} (ha : LastOk a) (hb : LastOk b) : LastOk (a ++ b) := by
  intro x hx
  rw [List.getLast?_append] at hx
  cases h : b.getLast? with
  | none => rw [h] at hx; exact ha x hx
  | some y => rw [h] at hx; simp at hx; subst hx; exact hb y h

theorem LastOk.cons {a : Block} {b : List Block} (hb : LastOk b) (ha : b = [] → a.own ≠ []) : LastOk (a :: b) := by
  intro x hx
  cases b with
  | nil => simp at hx; subst hx; exact ha rfl
  | cons c b => rw [List.getLast?_cons_cons] at hx; exact hb x hx

theorem lastOk_own (item : Bool) (path : List Text) (level : Nat) (t : List (Text × TV)) (hne : t ≠ [])
    (h1 : LastOk (subsBlocks false path level t))
    (h2 : subsBlocks false path level t = [] → ∀ e ∈ t, isInline (level + 1) e.2 = true) :
    LastOk (⟨item, path, own level t⟩ :: subsBlocks false path level t) := by
  refine h1.cons (fun h => ?_)
  have := h2 h
  have : own level t = t := List.filter_eq_self.2 this
  show own level t ≠ []
  rw [this]; exact hne

mutual
theorem subBlocks_last : ∀ (v : TV) (path : List Text) (level : Nat), Readable v → Kept v →
    LastOk (subBlocks path level v) ∧ subBlocks path level v ≠ []
  | .list l, path, level, hv, hk => by
    cases hv with
    | list _ hl =>
      have ht : l ≠ [] ∧ l.all TV.isTable = true := by
        rcases hk with h | h
        · simp [TV.isTable] at h
        · simpa [TV.isTables] using h
      unfold subBlocks
      have := tablesBlocks_last l path (level + 1) hl (List.all_eq_true.1 ht.2)
      exact ⟨this.1, this.2 ht.1⟩
  | .table t, path, level, hv, hk => by
    cases hv with
    | table _ hne hnd hks hl =>
      unfold subBlocks
      split
      · rename_i h
        simp only [Bool.and_eq_true] at h
        have := subsBlocks_last t true path level hl (fun e he _ => kept_hidden h.2 e he)
        refine ⟨this.1, fun h => ?_⟩
        obtain ⟨e, he⟩ := List.exists_mem_of_ne_nil t hne
        have := this.2 h e he
        simp at this
      · have := subsBlocks_last t false path level hl (fun e he h => by
          simp at h; exact kept_of_not_inline h)
        refine ⟨lastOk_own false path level t hne this.1 ?_, by simp⟩
        intro h e he
        have := this.2 h e he
        simpa using this
  | .str _, path, level, hv, hk => by rcases hk with h | h <;> simp [TV.isTable, TV.isTables] at h
  | .int _, path, level, hv, hk => by rcases hk with h | h <;> simp [TV.isTable, TV.isTables] at h
  | .bool _, path, level, hv, hk => by rcases hk with h | h <;> simp [TV.isTable, TV.isTables] at h
theorem subsBlocks_last : ∀ (es : List (Text × TV)) (hidden : Bool) (path : List Text) (level : Nat),
    (∀ e ∈ es, Readable e.2) → (∀ e ∈ es, (hidden || !isInline (level + 1) e.2) = true → Kept e.2) →
    LastOk (subsBlocks hidden path level es) ∧
    (subsBlocks hidden path level es = [] → ∀ e ∈ es, (hidden || !isInline (level + 1) e.2) = false)
  | [], hidden, path, level, _, _ => by simp [subsBlocks, LastOk]
  | (k, v) :: es, hidden, path, level, hv, hkeep => by
    have ih := subsBlocks_last es hidden path level (fun e he => hv e (List.mem_cons_of_mem _ he))
      (fun e he => hkeep e (List.mem_cons_of_mem _ he))
    unfold subsBlocks
    by_cases h : (hidden || !isInline (level + 1) v) = true
    · have hs := subBlocks_last v (path ++ [k]) (level + 1) (hv (k, v) (by simp)) (hkeep (k, v) (by simp) h)
      rw [if_pos h]
      refine ⟨hs.1.append ih.1, ?_⟩
      intro he
      exact absurd (List.append_eq_nil_iff.1 he).1 hs.2
    · rw [if_neg h]
      refine ⟨ih.1, ?_⟩
      intro he e hmem
      rcases List.mem_cons.1 hmem with rfl | hmem
      · simpa using h
      · exact ih.2 he e hmem
theorem tablesBlocks_last : ∀ (vs : List TV) (path : List Text) (level : Nat), (∀ v ∈ vs, Readable v) →
    (∀ v ∈ vs, v.isTable = true) →
    LastOk (tablesBlocks path level vs) ∧ (vs ≠ [] → tablesBlocks path level vs ≠ [])
  | [], path, level, _, _ => by simp [tablesBlocks, LastOk]
  | .table t :: vs, path, level, hv, ht => by
    have ih := tablesBlocks_last vs path level (fun v h => hv v (List.mem_cons_of_mem _ h)) (fun v h => ht v (List.mem_cons_of_mem _ h))
    unfold tablesBlocks
    cases hv (.table t) (by simp) with
    | table _ hne hnd hk hl =>
      have := subsBlocks_last t false path level hl (fun e he h => by
          simp at h; exact kept_of_not_inline h)
      refine ⟨LastOk.append (lastOk_own true path level t hne this.1 ?_) ih.1, by simp⟩
      intro h e he
      have := this.2 h e he
      simpa using this
  | .str _ :: vs, path, level, hv, ht => by have := ht _ List.mem_cons_self; simp [TV.isTable] at this
  | .int _ :: vs, path, level, hv, ht => by have := ht _ List.mem_cons_self; simp [TV.isTable] at this
  | .bool _ :: vs, path, level, hv, ht => by have := ht _ List.mem_cons_self; simp [TV.isTable] at this
  | .list _ :: vs, path, level, hv, ht => by have := ht _ List.mem_cons_self; simp [TV.isTable] at this
end

/-! ### The data that is read -/

mutual
/-- A value with its entries in the order in which they are read back. -/
def arr (level : Nat) : TV → TV
  | .list l => .list (arrTables (level + 1) l)
  | .table t =>
    if level != 0 && noAssignments t then .table (arrSubs true level t)
    else .table (own level t ++ arrSubs false level t)
  | v => v
def arrSubs (hidden : Bool) (level : Nat) : List (Text × TV) → List (Text × TV)
  | [] => []
  | (k, v) :: es =>
    (if hidden || !isInline (level + 1) v then [(k, arr (level + 1) v)] else []) ++ arrSubs hidden level es
def arrTables (level : Nat) : List TV → List TV
  | [] => []
  | .table t :: vs => .table (own level t ++ arrSubs false level t) :: arrTables level vs
  | _ :: vs => arrTables level vs
end

/-- `T` is the table at `path` in the data `D`; `C` gives the data with another table in its place. -/
def At (D : List (Text × TV)) (path : List Text) (T : List (Text × TV)) (C : List (Text × TV) → List (Text × TV)) : Prop :=
  (∀ k rest v, enter (path.map .key ++ .key k :: rest) v D = (enter (.key k :: rest) v T).map C) ∧
  (∀ T' k rest v, enter (path.map .key ++ .key k :: rest) v (C T') = (enter (.key k :: rest) v T').map C)

theorem At.of_root (T : List (Text × TV)) : At T [] T id := by
  constructor <;> simp

theorem At.moved {D path T C} (h : At D path T C) (T' : List (Text × TV)) : At (C T') path T' C := ⟨h.2 T', h.2⟩

theorem get_snoc (T : List (Text × TV)) (k : Text) (x : TV) (h : k ∉ T.map Prod.fst) : Dict.get (T ++ [(k, x)]) k = some x := by
  induction T with
  | nil => simp [Dict.get]
  | cons e T ih =>
    obtain ⟨a, w⟩ := e
    simp only [List.map_cons, List.mem_cons, not_or] at h
    have : ¬ a = k := fun e => h.1 e.symm
    simp [Dict.get, this, ih h.2]

theorem put_snoc (T : List (Text × TV)) (k : Text) (x y : TV) (h : k ∉ T.map Prod.fst) :
    Dict.put (T ++ [(k, x)]) k y = T ++ [(k, y)] := by
  induction T with
  | nil => simp [Dict.put]
  | cons e T ih =>
    obtain ⟨a, w⟩ := e
    simp only [List.map_cons, List.mem_cons, not_or] at h
    have : ¬ a = k := fun e => h.1 e.symm
    simp [Dict.put, this, ih h.2]

/-- Into a table that is already there. -/
theorem enter_table (T X : List (Text × TV)) (k j : Text) (rest : List Part) (v : TV) (h : k ∉ T.map Prod.fst) :
    enter (.key k :: .key j :: rest) v (T ++ [(k, .table X)]) =
      (enter (.key j :: rest) v X).map (fun X' => T ++ [(k, .table X')]) := by
  rw [enter.eq_def]
  simp only [get_snoc T k _ h, put_snoc T k _ _ h]

/-- Into a table that is not there yet. -/
theorem enter_missing (T : List (Text × TV)) (k j : Text) (rest : List Part) (v : TV) (h : k ∉ T.map Prod.fst) :
    enter (.key k :: .key j :: rest) v T = (enter (.key j :: rest) v []).map (fun X' => T ++ [(k, .table X')]) := by
  rw [enter.eq_def]
  simp [get_new T k h, put_new T k _ h]

/-- Into the last table of a list. -/
theorem enter_item (T X : List (Text × TV)) (prev : List TV) (k j : Text) (rest : List Part) (v : TV) (h : k ∉ T.map Prod.fst) :
    enter (.key k :: .key j :: rest) v (T ++ [(k, .list (prev ++ [.table X]))]) =
      (enter (.key j :: rest) v X).map (fun X' => T ++ [(k, .list (prev ++ [.table X']))]) := by
  rw [enter.eq_def]
  simp [get_snoc T k _ h, put_snoc T k _ _ h]

theorem at_table {D path T C} (h : At D path T C) (k : Text) (hk : k ∉ T.map Prod.fst) (X : List (Text × TV)) :
    At (C (T ++ [(k, .table X)])) (path ++ [k]) X (fun X' => C (T ++ [(k, .table X')])) := by
  have : ∀ Y j rest v, enter ((path ++ [k]).map Part.key ++ .key j :: rest) v (C (T ++ [(k, .table Y)])) =
      (enter (.key j :: rest) v Y).map (fun X' => C (T ++ [(k, .table X')])) := by
    intro Y j rest v
    have := h.2 (T ++ [(k, .table Y)]) k (.key j :: rest) v
    simp only [List.map_append, List.map_cons, List.map_nil, List.append_assoc, List.cons_append, List.nil_append]
    rw [this, enter_table T Y k j rest v hk]
    simp [Option.map_map, Function.comp_def]
  exact ⟨this X, this⟩

theorem at_missing {D path T C} (h : At D path T C) (k : Text) (hk : k ∉ T.map Prod.fst) :
    At D (path ++ [k]) [] (fun X' => C (T ++ [(k, .table X')])) := by
  refine ⟨?_, (at_table h k hk []).2⟩
  intro j rest v
  simp only [List.map_append, List.map_cons, List.map_nil, List.append_assoc, List.cons_append, List.nil_append]
  rw [h.1 k (.key j :: rest) v, enter_missing T k j rest v hk]
  simp [Option.map_map, Function.comp_def]

theorem at_item {D path T C} (h : At D path T C) (k : Text) (hk : k ∉ T.map Prod.fst) (prev : List TV) (X : List (Text × TV)) :
    At (C (T ++ [(k, .list (prev ++ [.table X]))])) (path ++ [k]) X (fun X' => C (T ++ [(k, .list (prev ++ [.table X']))])) := by
  have : ∀ Y j rest v, enter ((path ++ [k]).map Part.key ++ .key j :: rest) v (C (T ++ [(k, .list (prev ++ [.table Y]))])) =
      (enter (.key j :: rest) v Y).map (fun X' => C (T ++ [(k, .list (prev ++ [.table X']))])) := by
    intro Y j rest v
    have := h.2 (T ++ [(k, .list (prev ++ [.table Y]))]) k (.key j :: rest) v
    simp only [List.map_append, List.map_cons, List.map_nil, List.append_assoc, List.cons_append, List.nil_append]
    rw [this, enter_item T Y prev k j rest v hk]
    simp [Option.map_map, Function.comp_def]
  exact ⟨this X, this⟩

theorem own_keys_sub (level : Nat) (t : List (Text × TV)) : ((own level t).map Prod.fst).Sublist (t.map Prod.fst) :=
  List.Sublist.map _ List.filter_sublist

theorem own_apart (level : Nat) (t : List (Text × TV)) (hnd : (t.map Prod.fst).Nodup) :
    ∀ e ∈ t, (false || !isInline (level + 1) e.2) = true → e.1 ∉ (own level t).map Prod.fst := by
  intro e he hi hmem
  obtain ⟨e', he', hee⟩ := List.mem_map.1 hmem
  have h2 := (List.mem_filter.1 he')
  have : e = e' := by
    clear hmem hi h2
    have hm := (List.mem_filter.1 he').1
    clear he'
    induction t with
    | nil => simp at he
    | cons a t ih =>
      simp only [List.map_cons, List.nodup_cons] at hnd
      rcases List.mem_cons.1 he with rfl | he
      · rcases List.mem_cons.1 hm with rfl | hm
        · rfl
        · exact absurd (hee ▸ List.mem_map_of_mem hm) hnd.1
      · rcases List.mem_cons.1 hm with h | hm
        · exact absurd (by rw [← h, hee]; exact List.mem_map_of_mem he) hnd.1
        · exact ih hnd.2 he hm
  subst this
  simp [h2.2] at hi

mutual
theorem subBlocks_data : ∀ (v : TV) (k : Text) (path : List Text) (level : Nat) (D T : List (Text × TV))
    (C : List (Text × TV) → List (Text × TV)), Readable v → Kept v → At D path T C → k ∉ T.map Prod.fst →
    (subBlocks (path ++ [k]) (level + 1) v).foldlM stepBlock D = some (C (T ++ [(k, arr (level + 1) v)]))
  | .list l, k, path, level, D, T, C, hv, hkeep, hat, hk => by
    cases hv with
    | list _ hl =>
      have ht : l ≠ [] ∧ l.all TV.isTable = true := by
        rcases hkeep with h | h
        · simp [TV.isTable] at h
        · simpa [TV.isTables] using h
      unfold subBlocks arr
      have hstep : ∀ v, enter ((path ++ [k]).map .key ++ [.item]) v D = some (C (T ++ [(k, .list ([] ++ [v]))])) := by
        intro v
        simp only [List.map_append, List.map_cons, List.map_nil, List.append_assoc, List.cons_append, List.nil_append]
        rw [hat.1 k [.item] v]
        rw [enter.eq_def]
        simp [get_new T k hk, put_new T k _ hk]
      have := tablesBlocks_data l k path (level + 1 + 1) D T C [] hl (List.all_eq_true.1 ht.2) ⟨D, T, hat⟩ hk hstep ht.1
      simpa using this
  | .table t, k, path, level, D, T, C, hv, hkeep, hat, hk => by
    cases hv with
    | table _ hne hnd hks hl =>
      unfold subBlocks arr
      split
      · rename_i h
        simp only [Bool.and_eq_true] at h
        have := subsBlocks_data t true (path ++ [k]) (level + 1) D [] _ hl (fun e he _ => kept_hidden h.2 e he)
          (at_missing hat k hk) hnd (by simp)
        obtain ⟨D', h1, h2⟩ := this
        rw [h1]
        rcases h2 with h2 | ⟨h2, -⟩
        · rw [h2]; simp
        · exfalso
          cases t with
          | nil => exact hne rfl
          | cons e t => obtain ⟨a, w⟩ := e; simp [arrSubs] at h2
      · rw [List.foldlM_cons]
        have hs : stepBlock D ⟨false, path ++ [k], own (level + 1) t⟩ = some (C (T ++ [(k, .table (own (level + 1) t))])) := by
          unfold stepBlock
          simp only [Bool.false_eq_true, if_false, List.append_nil, List.map_append, List.map_cons, List.map_nil]
          rw [hat.1 k [] _]
          rw [enter.eq_def]
          simp [put_new T k _ hk]
        rw [hs]
        have := subsBlocks_data t false (path ++ [k]) (level + 1) _ (own (level + 1) t) _ hl (fun e he h => by
            simp at h; exact kept_of_not_inline h) (at_table hat k hk (own (level + 1) t)) hnd (own_apart (level + 1) t hnd)
        obtain ⟨D', h1, h2⟩ := this
        show List.foldlM stepBlock _ _ = _
        rw [h1]
        rcases h2 with h2 | ⟨h2, h3⟩
        · rw [h2]
        · rw [h3, h2]; simp
  | .str _, _, _, _, _, _, _, hv, hk, _, _ => by rcases hk with h | h <;> simp [TV.isTable, TV.isTables] at h
  | .int _, _, _, _, _, _, _, hv, hk, _, _ => by rcases hk with h | h <;> simp [TV.isTable, TV.isTables] at h
  | .bool _, _, _, _, _, _, _, hv, hk, _, _ => by rcases hk with h | h <;> simp [TV.isTable, TV.isTables] at h
theorem subsBlocks_data : ∀ (es : List (Text × TV)) (hidden : Bool) (path : List Text) (level : Nat) (D T : List (Text × TV))
    (C : List (Text × TV) → List (Text × TV)), (∀ e ∈ es, Readable e.2) →
    (∀ e ∈ es, (hidden || !isInline (level + 1) e.2) = true → Kept e.2) → At D path T C → (es.map Prod.fst).Nodup →
    (∀ e ∈ es, (hidden || !isInline (level + 1) e.2) = true → e.1 ∉ T.map Prod.fst) →
    ∃ D', (subsBlocks hidden path level es).foldlM stepBlock D = some D' ∧
      (D' = C (T ++ arrSubs hidden level es) ∨ (arrSubs hidden level es = [] ∧ D' = D))
  | [], hidden, path, level, D, T, C, _, _, hat, _, _ => by
    refine ⟨D, by simp [subsBlocks], Or.inr ⟨by simp [arrSubs], rfl⟩⟩
  | (k, v) :: es, hidden, path, level, D, T, C, hv, hkeep, hat, hnd, hnew => by
    simp only [List.map_cons, List.nodup_cons] at hnd
    unfold subsBlocks arrSubs
    rw [List.foldlM_append]
    by_cases h : (hidden || !isInline (level + 1) v) = true
    · rw [if_pos h, if_pos h]
      rw [subBlocks_data v k path level D T C (hv (k, v) (by simp)) (hkeep (k, v) (by simp) h) hat (hnew (k, v) (by simp) h)]
      obtain ⟨D', h1, h2⟩ := subsBlocks_data es hidden path level _ (T ++ [(k, arr (level + 1) v)]) C
        (fun e he => hv e (List.mem_cons_of_mem _ he)) (fun e he => hkeep e (List.mem_cons_of_mem _ he)) (hat.moved _) hnd.2 (by
          intro x hx hi
          simp only [List.map_append, List.map_cons, List.map_nil, List.mem_append, List.mem_singleton, not_or]
          refine ⟨hnew x (List.mem_cons_of_mem _ hx) hi, ?_⟩
          intro e
          apply hnd.1
          rw [← e]
          exact List.mem_map_of_mem hx)
      refine ⟨D', h1, Or.inl ?_⟩
      rcases h2 with h2 | ⟨h2, h3⟩
      · rw [h2]; simp
      · rw [h3, h2]; simp
    · rw [if_neg h, if_neg h]
      obtain ⟨D', h1, h2⟩ := subsBlocks_data es hidden path level D T C
        (fun e he => hv e (List.mem_cons_of_mem _ he)) (fun e he => hkeep e (List.mem_cons_of_mem _ he)) hat hnd.2
        (fun e he => hnew e (List.mem_cons_of_mem _ he))
      exact ⟨D', by simpa using h1, by simpa using h2⟩
theorem tablesBlocks_data : ∀ (vs : List TV) (k : Text) (path : List Text) (level : Nat) (D T : List (Text × TV))
    (C : List (Text × TV) → List (Text × TV)) (prev : List TV), (∀ v ∈ vs, Readable v) → (∀ v ∈ vs, v.isTable = true) →
    (∃ D0 T0, At D0 path T0 C) → k ∉ T.map Prod.fst →
    (∀ v, enter ((path ++ [k]).map .key ++ [.item]) v D = some (C (T ++ [(k, .list (prev ++ [v]))]))) → vs ≠ [] →
    (tablesBlocks (path ++ [k]) level vs).foldlM stepBlock D = some (C (T ++ [(k, .list (prev ++ arrTables level vs))]))
  | [], k, path, level, D, T, C, prev, _, _, _, _, _, hne => absurd rfl hne
  | .table t :: vs, k, path, level, D, T, C, prev, hv, ht, hat, hk, hstep, _ => by
    obtain ⟨D0, T0, hat⟩ := hat
    have hatT := hat.moved T
    unfold tablesBlocks arrTables
    cases hv (.table t) (by simp) with
    | table _ hne hnd hks hl =>
      rw [List.foldlM_append, List.foldlM_cons]
      have hs : stepBlock D ⟨true, path ++ [k], own level t⟩ = some (C (T ++ [(k, .list (prev ++ [.table (own level t)]))])) := by
        unfold stepBlock
        exact hstep _
      rw [hs]
      obtain ⟨D', h1, h2⟩ := subsBlocks_data t false (path ++ [k]) level _ (own level t) _ hl (fun e he h => by
          simp at h; exact kept_of_not_inline h) (at_item hatT k hk prev (own level t)) hnd (own_apart level t hnd)
      have h3 : D' = C (T ++ [(k, .list (prev ++ [.table (own level t ++ arrSubs false level t)]))]) := by
        rcases h2 with h2 | ⟨h2, h3⟩
        · exact h2
        · rw [h3, h2]; simp
      have e1 : (do
          let s' ← some (C (T ++ [(k, TV.list (prev ++ [TV.table (own level t)]))]))
          List.foldlM stepBlock s' (subsBlocks false (path ++ [k]) level t)) = some D' := h1
      rw [e1, h3]
      show List.foldlM stepBlock _ (tablesBlocks (path ++ [k]) level vs) = _
      cases hvs : vs with
      | nil => simp [tablesBlocks, arrTables]
      | cons w ws =>
        have := tablesBlocks_data vs k path level
          (C (T ++ [(k, .list (prev ++ [.table (own level t ++ arrSubs false level t)]))])) T C (prev ++ [.table (own level t ++ arrSubs false level t)])
          (fun v h => hv v (List.mem_cons_of_mem _ h)) (fun v h => ht v (List.mem_cons_of_mem _ h)) ⟨D0, T0, hat⟩ hk (by
            intro v
            simp only [List.map_append, List.map_cons, List.map_nil, List.append_assoc, List.cons_append, List.nil_append]
            rw [hat.2 (T ++ [(k, TV.list (prev ++ [TV.table (own level t ++ arrSubs false level t)]))]) k [.item] v]
            rw [enter.eq_def]
            simp [get_snoc T k _ hk, put_snoc T k _ _ hk]) (by rw [hvs]; simp)
        rw [hvs] at this
        rw [this]
        simp
  | .str _ :: vs, _, _, _, _, _, _, _, hv, ht, _, _, _, _ => by have := ht _ List.mem_cons_self; simp [TV.isTable] at this
  | .int _ :: vs, _, _, _, _, _, _, _, hv, ht, _, _, _, _ => by have := ht _ List.mem_cons_self; simp [TV.isTable] at this
  | .bool _ :: vs, _, _, _, _, _, _, _, hv, ht, _, _, _, _ => by have := ht _ List.mem_cons_self; simp [TV.isTable] at this
  | .list _ :: vs, _, _, _, _, _, _, _, hv, ht, _, _, _, _ => by have := ht _ List.mem_cons_self; simp [TV.isTable] at this
end

/-! ### The same data -/

theorem equal_refl : ∀ v : TV, Equal v v
  | .str s => .str s
  | .int n => .int n
  | .bool b => .bool b
  | .list l => .list l l rfl (fun i v w h1 h2 => by
      have : v = w := by rw [h1] at h2; simpa using h2
      subst this
      have hm : v ∈ l := List.mem_of_getElem? h1
      exact equal_refl v)
  | .table t => .table t t (fun _ => rfl) (fun k v w h1 h2 => by
      have : v = w := by rw [h1] at h2; simpa using h2
      subst this
      have hm : (k, v) ∈ t := Dict.get_mem _ _ _ h1
      exact equal_refl v)
termination_by v => sizeOf v
decreasing_by
  · have := List.sizeOf_lt_of_mem hm
    simp_wf
    omega
  · have := List.sizeOf_lt_of_mem hm
    simp_wf
    simp at this
    omega

theorem get_append (a b : List (Text × TV)) (k : Text) : Dict.get (a ++ b) k = (Dict.get a k).or (Dict.get b k) := by
  induction a with
  | nil => simp [Dict.get]
  | cons e a ih =>
    obtain ⟨j, w⟩ := e
    by_cases h : j = k <;> simp [Dict.get, h, ih]

theorem get_own (level : Nat) (t : List (Text × TV)) (k : Text) (hnd : (t.map Prod.fst).Nodup) :
    Dict.get (own level t) k = (Dict.get t k).filter (fun v => isInline (level + 1) v) := by
  induction t with
  | nil => rfl
  | cons e t ih =>
    obtain ⟨j, w⟩ := e
    simp only [List.map_cons, List.nodup_cons] at hnd
    have hown : own level ((j, w) :: t) = if isInline (level + 1) w then (j, w) :: own level t else own level t := by
      unfold own
      rw [List.filter_cons]
    rw [hown]
    by_cases h : j = k
    · subst h
      have hn : Dict.get (own level t) j = none :=
        get_new _ _ (fun hm => hnd.1 ((own_keys_sub level t).subset hm))
      by_cases hi : isInline (level + 1) w = true <;> simp [Dict.get, hi, Option.filter, hn]
    · by_cases hi : isInline (level + 1) w = true <;> simp [Dict.get, hi, h, ih hnd.2]

theorem arrSubs_keys (hidden : Bool) (level : Nat) (t : List (Text × TV)) :
    ((arrSubs hidden level t).map Prod.fst).Sublist (t.map Prod.fst) := by
  induction t with
  | nil => simp [arrSubs]
  | cons e t ih =>
    obtain ⟨j, w⟩ := e
    unfold arrSubs
    split
    · simpa using ih
    · simpa using ih.cons j

theorem get_arrSubs (hidden : Bool) (level : Nat) (t : List (Text × TV)) (k : Text) (hnd : (t.map Prod.fst).Nodup) :
    Dict.get (arrSubs hidden level t) k =
      ((Dict.get t k).filter (fun v => hidden || !isInline (level + 1) v)).map (arr (level + 1)) := by
  induction t with
  | nil => simp [arrSubs, Dict.get]
  | cons e t ih =>
    obtain ⟨j, w⟩ := e
    simp only [List.map_cons, List.nodup_cons] at hnd
    unfold arrSubs
    by_cases h : j = k
    · subst h
      have hn : Dict.get (arrSubs hidden level t) j = none :=
        get_new _ _ (fun hm => hnd.1 ((arrSubs_keys hidden level t).subset hm))
      by_cases hi : (hidden || !isInline (level + 1) w) = true
      · simp [Dict.get, hi, Option.filter]
      · simp [Dict.get, hi, Option.filter, hn]
    · by_cases hi : (hidden || !isInline (level + 1) w) = true
      · simp [Dict.get, hi, h, ih hnd.2]
      · simp [Dict.get, hi, h, ih hnd.2]

theorem get_own_arr (level : Nat) (t : List (Text × TV)) (k : Text) (hnd : (t.map Prod.fst).Nodup) :
    Dict.get (own level t ++ arrSubs false level t) k =
      (Dict.get t k).map (fun v => if isInline (level + 1) v then v else arr (level + 1) v) := by
  rw [get_append, get_own level t k hnd, get_arrSubs false level t k hnd]
  cases h : Dict.get t k with
  | none => simp
  | some v => by_cases hi : isInline (level + 1) v = true <;> simp [Option.filter, hi]

theorem arrTables_get (level : Nat) (l : List TV) (h : ∀ v ∈ l, v.isTable = true) (i : Nat) :
    (arrTables level l)[i]? = (l[i]?).map (fun v => match v with
      | .table t => .table (own level t ++ arrSubs false level t)
      | v => v) := by
  induction l generalizing i with
  | nil => simp [arrTables]
  | cons v l ih =>
    have ih := ih (fun w hw => h w (List.mem_cons_of_mem _ hw))
    cases v with
    | table t =>
      unfold arrTables
      cases i with
      | zero => simp
      | succ i => simpa using ih i
    | str _ => have := h _ List.mem_cons_self; simp [TV.isTable] at this
    | int _ => have := h _ List.mem_cons_self; simp [TV.isTable] at this
    | bool _ => have := h _ List.mem_cons_self; simp [TV.isTable] at this
    | list _ => have := h _ List.mem_cons_self; simp [TV.isTable] at this

theorem equal_arr {v : TV} (hv : Readable v) : ∀ level,
    (Kept v → Equal (arr level v) v) ∧ (∀ t, v = .table t → Equal (.table (own level t ++ arrSubs false level t)) v) := by
  induction hv with
  | str s _ => intro level; exact ⟨fun h => by rcases h with h | h <;> simp [TV.isTable, TV.isTables] at h, by intro t e; simp at e⟩
  | int s => intro level; exact ⟨fun h => by rcases h with h | h <;> simp [TV.isTable, TV.isTables] at h, by intro t e; simp at e⟩
  | bool s => intro level; exact ⟨fun h => by rcases h with h | h <;> simp [TV.isTable, TV.isTables] at h, by intro t e; simp at e⟩
  | list l _ ih =>
    intro level
    refine ⟨fun hkeep => ?_, by intro t e; simp at e⟩
    have ht : l ≠ [] ∧ l.all TV.isTable = true := by
      rcases hkeep with h | h
      · simp [TV.isTable] at h
      · simpa [TV.isTables] using h
    have ht := List.all_eq_true.1 ht.2
    unfold arr
    have hlen : (arrTables (level + 1) l).length = l.length := by
      have h1 := arrTables_get (level + 1) l ht
      apply Nat.le_antisymm
      · have := h1 l.length
        rw [List.getElem?_eq_none (Nat.le_refl l.length)] at this
        simpa using this
      · have := h1 (arrTables (level + 1) l).length
        rw [List.getElem?_eq_none (Nat.le_refl _)] at this
        simpa using this.symm
    refine .list _ _ hlen ?_
    intro i v w h1 h2
    rw [arrTables_get (level + 1) l ht, h2] at h1
    have hm : w ∈ l := List.mem_of_getElem? h2
    have htw := ht w hm
    cases w with
    | table t =>
      simp at h1
      subst h1
      exact (ih _ hm (level + 1)).2 t rfl
    | str _ => simp [TV.isTable] at htw
    | int _ => simp [TV.isTable] at htw
    | bool _ => simp [TV.isTable] at htw
    | list _ => simp [TV.isTable] at htw
  | table t hne hnd hk _ ih =>
    intro level
    have hreg : ∀ level, Equal (.table (own level t ++ arrSubs false level t)) (.table t) := by
      intro level
      refine .table _ _ ?_ ?_
      · intro k; rw [get_own_arr level t k hnd]; simp
      · intro k v w h1 h2
        rw [get_own_arr level t k hnd, h2] at h1
        simp at h1
        have hm : (k, w) ∈ t := Dict.get_mem _ _ _ h2
        split at h1
        · subst h1; exact equal_refl _
        · rename_i hi
          subst h1
          exact (ih (k, w) hm (level + 1)).1 (kept_of_not_inline (by simpa using hi))
    refine ⟨fun _ => ?_, ?_⟩
    · unfold arr
      split
      · rename_i h
        simp only [Bool.and_eq_true] at h
        refine .table _ _ ?_ ?_
        · intro k; rw [get_arrSubs true level t k hnd]
          cases Dict.get t k <;> simp [Option.filter]
        · intro k v w h1 h2
          rw [get_arrSubs true level t k hnd, h2] at h1
          simp [Option.filter] at h1
          have hm : (k, w) ∈ t := Dict.get_mem _ _ _ h2
          subst h1
          exact (ih (k, w) hm (level + 1)).1 (kept_hidden h.2 _ hm)
      · exact hreg level
    · intro t' e
      simp at e
      subst e
      exact hreg level

/-- Everything together: the data read back from the written text. -/
theorem loads_dumps (t : List (Text × TV)) (hnd : (t.map Prod.fst).Nodup) (hk : ∀ e ∈ t, ReadableStr e.1)
    (hv : ∀ e ∈ t, Readable e.2) (hdig : ∀ c, (dumps t).getLast? = some c → isDigit c = false) :
    loads (dumps t) = some (own 0 t ++ arrSubs false 0 t) := by
  have hlast := subsBlocks_last t false [] 0 hv (fun e he h => by simp at h; exact kept_of_not_inline h)
  have hgood := subsBlocks_good t false [] 0 hk hv (by simp)
  have hroot : GoodBlock ⟨false, [], own 0 t⟩ := goodBlock_own _ _ _ _ (by simp) hnd hk hv
  obtain ⟨D', h1, h2⟩ := subsBlocks_data t false [] 0 (own 0 t) (own 0 t) id hv
    (fun e he h => by simp at h; exact kept_of_not_inline h) (At.of_root _) hnd (own_apart 0 t hnd)
  have hD : D' = own 0 t ++ arrSubs false 0 t := by
    rcases h2 with h2 | ⟨h2, h3⟩
    · exact h2
    · rw [h3, h2]; simp
  -- the text is the closed one
  have hnil : docBlocks t = [⟨false, [], []⟩] ∨ ∃ bs b, docBlocks t = bs ++ [b] ∧ b.own ≠ [] := by
    by_cases hs : subsBlocks false [] 0 t = []
    · by_cases ho : own 0 t = []
      · left; simp [docBlocks, hs, ho]
      · right; exact ⟨[], ⟨false, [], own 0 t⟩, by simp [docBlocks, hs], ho⟩
    · right
      obtain ⟨bs, b, hb⟩ : ∃ bs b, subsBlocks false [] 0 t = bs ++ [b] := ⟨_, _, (List.dropLast_concat_getLast hs).symm⟩
      refine ⟨⟨false, [], own 0 t⟩ :: bs, b, by simp [docBlocks, hb], ?_⟩
      apply hlast.1
      rw [hb]; simp
  have htext : dumps t = closing (docBlocks t) := by
    rw [dumps_texts]
    rcases hnil with h | ⟨bs, b, h, hb⟩
    · rw [h]; rfl
    · rw [h]; exact rstrip_texts bs b hb
  have hint : NoLastInt (docBlocks t) := by
    intro b e n hb he hen
    rcases hnil with h | ⟨bs, b', h, hb'⟩
    · rw [h] at hb; simp at hb; subst hb; simp at he
    · rw [h] at hb
      simp at hb
      subst hb
      obtain ⟨es, he'⟩ : ∃ es, b'.own = es ++ [e] := by
        refine ⟨b'.own.dropLast, ?_⟩
        have := List.dropLast_concat_getLast hb'
        rw [List.getLast?_eq_some_getLast hb'] at he
        simp at he
        rw [he] at this
        exact this.symm
      obtain ⟨u, hu⟩ := lastLines_last es e
      obtain ⟨w, c, hw, -, hc⟩ := writeInline_last e.2
      have := hdig c (by
        rw [htext, h, closing_snoc, he', hu, hw]
        simp)
      rw [hc n hen] at this
      simp at this
  rw [htext]
  have := loads_blocks ⟨false, [], own 0 t⟩ (subsBlocks false [] 0 t) rfl (by
    intro x hx
    rcases List.mem_cons.1 hx with rfl | hx
    · exact hroot
    · exact (hgood x hx).1) (fun x hx => (hgood x hx).2) hint hlast.1
  unfold docBlocks
  rw [this]
  show List.foldlM stepBlock (own 0 t) (subsBlocks false [] 0 t) = _
  rw [h1, hD]

end Toml
end Pkm
