import Verif.Collections.Lemmas
set_option linter.unusedVariables false
set_option linter.unusedSimpArgs false
/-
Properties C41 (hashes), C45 (grouping, partitioning, deduplicating) and C51 (small helpers).
-/
namespace Pkm
open Coll
variable {T K V : Type} [DecidableEq K]

/-! ## C45 -/

/-- C45: the group of a key is the list of all elements with that key, in their order; a key without
elements has no group. -/
theorem groupby_groups (xs : List T) (key : T → K) (k : K) :
    (groupby xs key).get k =
      if (xs.filter (fun x => decide (key x = k))).isEmpty then none
      else some (xs.filter (fun x => decide (key x = k))) := by
  have := groupFold_get key xs [] [] (by intro k; simp [Dict.get, groupOf]) k
  simpa [groupOf, groupby] using this

/-- C45: the keys are distinct, and in the order of their first element. -/
theorem groupby_keys (xs : List T) (key : T → K) :
    (Dict.keys (groupby xs key)).Nodup ∧ Dict.keys (groupby xs key) = (uniqueBy xs key).map key := by
  refine ⟨groupFold_wf key xs [] (by simp [Dict.Wf, Dict.keys]), ?_⟩
  have := groupFold_keys key xs []
  simpa [Dict.keys, uniqueBy, groupby] using this

/-- C45: all groups together hold every element exactly as often as the input. -/
theorem groupby_loses_nothing (xs : List T) (key : T → K) :
    ((Dict.values (groupby xs key)).flatten).Perm xs := by
  have hwf : Dict.Wf (groupby xs key) := (groupby_keys xs key).1
  rw [values_eq_map_get (groupby xs key) hwf (fun k => xs.filter (fun x => decide (key x = k)))]
  · apply flatten_groups key _ hwf
    intro x hx
    apply Classical.byContradiction
    intro h
    have h1 := (Dict.get_none_iff _ _).2 h
    rw [groupby_groups] at h1
    have : x ∈ xs.filter (fun y => decide (key y = key x)) := by simp [hx]
    split at h1
    · rename_i he; simp at he; exact he x hx rfl
    · simp at h1
  · intro k v h
    rw [groupby_groups] at h
    split at h <;> simp_all

/-- C45: `partition` splits into the matching elements and the rest, both in order. -/
theorem partition_exact (xs : List T) (p : T → Bool) :
    partition xs p = (xs.filter p, xs.filter (fun x => !p x)) ∧
    ((partition xs p).1 ++ (partition xs p).2).Perm xs := by
  have h : partition xs p = (xs.filter p, xs.filter (fun x => !p x)) := by
    unfold partition; rw [partitionLoop_eq]; simp
  exact ⟨h, by rw [h]; exact List.filter_append_perm p xs⟩

/-- C45: `unique_by` / `distinct` keeps, in order, exactly the first element of every key. -/
theorem unique_by_first (xs : List T) (key : T → K) :
    (uniqueBy xs key).Sublist xs ∧ ((uniqueBy xs key).map key).Nodup ∧
    ∀ y, y ∈ uniqueBy xs key ↔ ∃ pre post, xs = pre ++ y :: post ∧ key y ∉ pre.map key := by
  refine ⟨distinctLoop_sublist key xs [], (distinctLoop_nodup key xs []).1, ?_⟩
  intro y
  have := distinctLoop_mem key xs [] y
  simpa [uniqueBy] using this

/-- C45: every key of the input is still there. -/
theorem unique_by_keys (xs : List T) (key : T → K) (x : T) (hx : x ∈ xs) :
    key x ∈ (uniqueBy xs key).map key := by
  have h1 : key x ∈ Dict.keys (groupby xs key) := by
    apply Classical.byContradiction
    intro h
    have h1 := (Dict.get_none_iff _ _).2 h
    rw [groupby_groups] at h1
    split at h1
    · rename_i he; simp at he; exact he x hx rfl
    · simp at h1
  rw [(groupby_keys xs key).2] at h1
  exact h1

/-- The statements are about something: grouping `1, 2, 3, 4` by parity. -/
example : groupby [1, 2, 3, 4] (fun n => n % 2) = [(1, [1, 3]), (0, [2, 4])] ∧
    uniqueBy [1, 2, 3, 4] (fun n => n % 2) = [1, 2] ∧
    partition [1, 2, 3, 4] (fun n => n % 2 == 0) = ([2, 4], [1, 3]) := by decide

/-! ## C41 -/

/-- C41: `unordered_seq` does not depend on the order of the elements. -/
theorem unordered_hash_perm (r : Int) (xs ys : List T) (h : T → Int) (p : xs.Perm ys) :
    HashBuilder.unorderedSeq r xs h = HashBuilder.unorderedSeq r ys h := by
  unfold HashBuilder.unorderedSeq
  rw [HashBuilder.fold_xor_perm h p]

omit [DecidableEq K] in
/-- C41: `unordered_mapping` gives equal hashes for dictionaries with the same items. -/
theorem unordered_mapping_perm (r : Int) (m n : Dict K V) (kh : K → Int) (vh : V → Int)
    (p : m.Perm n) : HashBuilder.unorderedMapping r m kh vh = HashBuilder.unorderedMapping r n kh vh := by
  unfold HashBuilder.unorderedMapping
  rw [HashBuilder.fold_xor_perm (fun q : K × V => (7 * 31 + kh q.1) * 31 + vh q.2) p]

/-- C41: ordered hashes only depend on the sequence of item hashes. -/
theorem ordered_hash_congr (r : Int) (xs ys : List T) (h : T → Int) (e : xs.map h = ys.map h) :
    HashBuilder.orderedSeq r xs h = HashBuilder.orderedSeq r ys h := by
  have key : ∀ (l : List T) (r : Int), HashBuilder.orderedSeq r l h =
      (l.map h).foldl (fun acc x => acc * 31 + x) r := by
    intro l
    induction l with
    | nil => intro r; rfl
    | cons x l ih => intro r; exact ih _
  rw [key, key, e]

/-- C41: the hash of a sequence is the polynomial in 31 of the item hashes, so `ordered_seq` of a
sequence is `regular` of its items one after the other. -/
theorem ordered_hash_regulars (r : Int) (xs : List T) (x : T) (h : T → Int) :
    HashBuilder.orderedSeq r (xs ++ [x]) h = HashBuilder.regular (HashBuilder.orderedSeq r xs h) (h x) := by
  simp [HashBuilder.orderedSeq, HashBuilder.regular]

/-- Two different orders of three elements. -/
example : HashBuilder.unorderedSeq 7 [1, 2, 3] (fun n => n) =
    HashBuilder.unorderedSeq 7 [3, 1, 2] (fun n => n) ∧
    HashBuilder.orderedSeq 7 [1, 2] (fun n => n) ≠ HashBuilder.orderedSeq 7 [2, 1] (fun n => n) :=
  ⟨unordered_hash_perm 7 _ _ _ (by decide), by decide⟩

/-! ## C51: dictionary, set, sequence and string helpers -/

/-- C51: `add_if_absent` reports whether the element was new and adds it in any case. -/
theorem add_if_absent_spec [DecidableEq T] (s : List T) (x : T) :
    ((addIfAbsent s x).2 = true ↔ x ∉ s) ∧ ∀ y, y ∈ (addIfAbsent s x).1 ↔ y = x ∨ y ∈ s := by
  unfold addIfAbsent
  by_cases h : x ∈ s
  · simp only [h, if_true]
    refine ⟨by simp, fun y => ?_⟩
    constructor
    · exact Or.inr
    · rintro (rfl | h')
      · exact h
      · exact h'
  · simp [h, or_comm]

/-- C51: `put_if_absent` never changes an existing entry. -/
theorem put_if_absent_spec (d : Dict K V) (k j : K) (v : V) :
    (putIfAbsent d k v).1.get j = (match d.get j with
      | some w => some w
      | none => if j = k then some v else none) ∧
    ((putIfAbsent d k v).2 = true ↔ d.get k = none) := by
  unfold putIfAbsent Dict.has
  cases h : d.get k with
  | none =>
    simp only [Option.isSome_none, Bool.false_eq_true, if_false, Dict.get_put]
    by_cases e : k = j
    · subst e; simp [h]
    · have : ¬ j = k := fun x => e x.symm
      simp only [e, this, if_false]
      cases d.get j <;> simp
  | some w =>
    simp only [Option.isSome_some, if_true]
    by_cases e : j = k
    · subst e; simp [h]
    · simp only [e, if_false]
      cases d.get j <;> simp

/-- C51: `get_or_put` returns what is stored afterwards and keeps existing entries. -/
theorem get_or_put_spec (d : Dict K V) (k j : K) (v : V) :
    (getOrPut d k v).1.get k = some (getOrPut d k v).2 ∧
    (∀ w, d.get k = some w → (getOrPut d k v) = (d, w)) ∧
    (j ≠ k → (getOrPut d k v).1.get j = d.get j) := by
  unfold getOrPut
  cases h : d.get k with
  | none =>
    refine ⟨by simp [Dict.get_put], by simp, ?_⟩
    intro e
    have : ¬ k = j := fun x => e x.symm
    simp [Dict.get_put, this]
  | some w => simp [h]

/-- C51: `without_keys` drops exactly the given keys. -/
theorem without_keys_spec (d : Dict K V) (ks : List K) (j : K) :
    (withoutKeys d ks).get j = if j ∈ ks then none else d.get j := by
  unfold withoutKeys
  induction d with
  | nil => simp [Dict.get]
  | cons p d ih =>
    obtain ⟨a, w⟩ := p
    by_cases ha : a ∈ ks
    · rw [List.filter_cons_of_neg (by simpa using ha), ih]
      by_cases e : a = j
      · subst e; simp [ha]
      · simp [Dict.get, e]
    · rw [List.filter_cons_of_pos (by simpa using ha)]
      by_cases e : a = j
      · subst e; simp [Dict.get, ha]
      · simp only [Dict.get, e, if_false]; exact ih

/-- C51: `remove_by_value` drops exactly the entries whose value matches. -/
theorem remove_by_value_spec (d : Dict K V) (m : V → Bool) (hd : Dict.Wf d) (j : K) (v : V) :
    (removeByValue d m).get j = some v ↔ d.get j = some v ∧ m v = false := by
  have hdel : ∀ (ks : List K) (d : Dict K V),
      (ks.foldl Dict.del d).get j = if j ∈ ks then none else d.get j := by
    intro ks
    induction ks with
    | nil => intro d; simp
    | cons k ks ih =>
      intro d
      rw [List.foldl_cons, ih, Dict.get_del]
      by_cases h1 : j ∈ ks
      · simp [h1]
      · by_cases h2 : k = j
        · subst h2; simp
        · have : ¬ j = k := fun x => h2 x.symm
          simp [h1, h2, this]
  unfold removeByValue
  rw [hdel]
  constructor
  · intro h
    split at h
    · simp at h
    · rename_i hn
      refine ⟨h, ?_⟩
      cases hm : m v with
      | false => rfl
      | true =>
        exact absurd (by simp; exact ⟨v, Dict.get_mem d j v h, hm⟩) hn
  · rintro ⟨h1, h2⟩
    rw [if_neg]
    · exact h1
    · intro hj
      simp at hj
      obtain ⟨w, hw, hm⟩ := hj
      have := Dict.mem_get d j w hd hw
      rw [h1] at this; simp at this; subst this
      rw [h2] at hm; simp at hm

/-- C51: `startswith` is the prefix relation. -/
theorem startswith_spec [DecidableEq T] (sq pre : List T) :
    startswith sq pre = true ↔ ∃ rest, sq = pre ++ rest := by
  unfold startswith
  induction pre generalizing sq with
  | nil => simp
  | cons p pre ih =>
    cases sq with
    | nil => simp
    | cons s sq =>
      have := ih sq
      by_cases hl : pre.length > sq.length
      · simp only [List.length_cons, List.cons_append, List.cons.injEq]
        rw [if_pos (by omega)]
        simp only [Bool.false_eq_true, false_iff, not_exists, not_and]
        rintro rest - rfl
        simp at hl
        omega
      · rw [if_neg hl] at this
        rw [if_neg (by simp only [List.length_cons]; omega)]
        simp only [List.zip_cons_cons, List.all_cons, Bool.and_eq_true, decide_eq_true_eq, this,
          List.cons_append, List.cons.injEq]
        constructor
        · rintro ⟨h, r, hr⟩; exact ⟨r, h, hr⟩
        · rintro ⟨r, h, hr⟩; exact ⟨h, r, hr⟩

/-- C51: `argmin` is the first index of a minimal key, and only fails on the empty sequence. -/
theorem argmin_spec (xs : List T) (key : T → Int) :
    (argmin xs key = none ↔ xs = []) ∧
    ∀ i, argmin xs key = some i → ∃ x, xs[i]? = some x ∧
      ∀ (j : Nat) (y : T), xs[j]? = some y → key x ≤ key y ∧ (key y = key x → i ≤ j) := by
  cases xs with
  | nil => simp [argmin]
  | cons x xs =>
    refine ⟨by simp [argmin], ?_⟩
    intro i h
    simp only [argmin, Option.some.injEq] at h
    obtain ⟨h1, h2, h3⟩ := argminLoop_spec (fun i => key ((x :: xs).getD i x)) (List.range' 1 xs.length) 0
      (by intro i hi; simp at hi; omega) List.pairwise_lt_range'
    rw [h] at h1 h2 h3
    have hi : i < (x :: xs).length := by
      rcases h1 with rfl | h1
      · simp
      · simp at h1 ⊢; omega
    refine ⟨(x :: xs)[i], List.getElem?_eq_getElem hi, ?_⟩
    intro j y hy
    obtain ⟨hj, rfl⟩ := List.getElem?_eq_some_iff.1 hy
    have hj' : j = 0 ∨ j ∈ List.range' 1 xs.length := by
      simp at hj ⊢; omega
    have e : ∀ n (hn : n < (x :: xs).length), (x :: xs).getD n x = (x :: xs)[n] := by
      intro n hn; rw [List.getD_eq_getElem?_getD, List.getElem?_eq_getElem hn]; rfl
    have k1 := h2 j hj'
    have k2 := h3 j hj'
    simp only [e i hi, e j hj] at k1 k2
    exact ⟨k1, k2⟩

/-- C51: `without_prefix` removes the prefix if there is one. -/
theorem without_prefix_spec (s pre : Text) :
    (∀ rest, s = pre ++ rest → withoutPrefix s pre = rest) ∧
    ((¬ ∃ rest, s = pre ++ rest) → withoutPrefix s pre = s) := by
  unfold withoutPrefix
  refine ⟨?_, ?_⟩
  · rintro rest rfl
    simp
  · intro h
    rw [if_neg]
    intro hp
    rw [List.isPrefixOf_iff_prefix] at hp
    obtain ⟨r, hr⟩ := hp
    exact h ⟨r, hr.symm⟩

/-- C51: `without_suffix` removes a non-empty suffix if there is one. The documented behaviour for the
empty suffix (`s` itself) does not hold, see `without_suffix_violated`. -/
theorem without_suffix_partial (s suf : Text) (hne : suf ≠ []) :
    (∀ rest, s = rest ++ suf → withoutSuffix s suf = rest) ∧
    ((¬ ∃ rest, s = rest ++ suf) → withoutSuffix s suf = s) := by
  unfold withoutSuffix
  refine ⟨?_, ?_⟩
  · rintro rest rfl
    have : suf.isSuffixOf (rest ++ suf) = true := by
      rw [List.isSuffixOf_iff_suffix]; exact List.suffix_append _ _
    rw [if_pos this]
    have hl : ¬ suf.length = 0 := by simpa using hne
    simp [dropRight, hl]
  · intro h
    rw [if_neg]
    intro hp
    rw [List.isSuffixOf_iff_suffix] at hp
    obtain ⟨r, hr⟩ := hp
    exact h ⟨r, hr.symm⟩

/-- C51 fails: the empty suffix erases the whole text. -/
theorem without_suffix_violated : withoutSuffix ['a', 'b'] [] = [] := by decide

/-- C51 fails: `get_or_default` never returns the default; beyond the end it raises `IndexError`. -/
theorem get_or_default_violated (xs : List T) (i : Int) (d : T) :
    getOrDefault xs i d = pyIndex xs i ∧ getOrDefault ([] : List T) 0 d = none := by
  refine ⟨?_, by simp [getOrDefault, pyIndex]⟩
  unfold getOrDefault
  rw [if_neg]
  omega

/-- C51: `without_first` leaves out the first occurrence of the item and nothing else. -/
theorem without_first_spec [DecidableEq T] (item : T) (xs : List T) :
    (∀ a b, xs = a ++ item :: b → item ∉ a → withoutFirst item xs = a ++ b) ∧
    (item ∉ xs → withoutFirst item xs = xs) := by
  refine ⟨?_, ?_⟩
  · rintro a b rfl ha
    induction a with
    | nil => simp [withoutFirst]
    | cons x a ih =>
      simp at ha
      have h1 : ¬ x = item := fun e => ha.1 e.symm
      simp only [List.cons_append, withoutFirst, h1, if_false, List.cons.injEq, true_and]
      exact ih ha.2
  · intro h
    induction xs with
    | nil => rfl
    | cons x xs ih =>
      simp at h
      have h1 : ¬ x = item := fun e => h.1 e.symm
      simp only [withoutFirst, h1, if_false, List.cons.injEq, true_and]
      exact ih h.2

example : withoutFirst 2 [1, 2, 3, 2] = [1, 3, 2] := by decide

end Pkm
