/-
Python dictionaries as association lists in insertion order, shared by several models.
-/
namespace Pkm

/-- A Python `dict` in insertion order. -/
abbrev Dict (K V : Type) := List (K × V)

namespace Dict
variable {K V : Type} [DecidableEq K]

/-- `d.get(k)`. -/
def get : Dict K V → K → Option V
  | [], _ => none
  | (a, v) :: d, k => if a = k then some v else get d k

/-- `d[k] = v`: an existing key keeps its place. -/
def put : Dict K V → K → V → Dict K V
  | [], k, v => [(k, v)]
  | (a, w) :: d, k, v => if a = k then (a, v) :: d else (a, w) :: put d k v

/-- `d.pop(k, None)` as a statement. -/
def del : Dict K V → K → Dict K V
  | [], _ => []
  | (a, w) :: d, k => if a = k then del d k else (a, w) :: del d k

/-- `d.keys()`. -/
def keys (d : Dict K V) : List K := d.map (·.1)

/-- `d.values()`. -/
def values (d : Dict K V) : List V := d.map (·.2)

/-- `k in d`. -/
def has (d : Dict K V) (k : K) : Bool := (d.get k).isSome

/-- No key occurs twice: holds for every real dictionary. -/
def Wf (d : Dict K V) : Prop := (keys d).Nodup

theorem get_put (d : Dict K V) (k j : K) (v : V) :
    (d.put k v).get j = if k = j then some v else d.get j := by
  induction d with
  | nil => simp [put, get]
  | cons p d ih =>
    obtain ⟨a, w⟩ := p
    by_cases h : a = k
    · subst h
      by_cases h2 : a = j <;> simp [put, get, h2]
    · by_cases h2 : a = j
      · subst h2
        have : ¬ k = a := fun e => h e.symm
        simp [put, get, h, this]
      · simp [put, get, h, h2, ih]

theorem get_del (d : Dict K V) (k j : K) :
    (d.del k).get j = if k = j then none else d.get j := by
  induction d with
  | nil => simp [del, get]
  | cons p d ih =>
    obtain ⟨a, w⟩ := p
    by_cases h : a = k
    · subst h
      by_cases h2 : a = j
      · subst h2; simpa [del] using ih
      · simp [del, get, h2, ih]
    · by_cases h2 : a = j
      · subst h2
        have : ¬ k = a := fun e => h e.symm
        simp [del, get, h, this]
      · simp [del, get, h, h2, ih]

theorem get_none_iff (d : Dict K V) (k : K) : d.get k = none ↔ k ∉ keys d := by
  induction d with
  | nil => simp [get, keys]
  | cons p d ih =>
    obtain ⟨a, w⟩ := p
    by_cases h : a = k
    · subst h; simp [get, keys]
    · have : ¬ k = a := fun e => h e.symm
      simp [get, h, ih, keys, this]

theorem keys_put (d : Dict K V) (k : K) (v : V) :
    keys (d.put k v) = if k ∈ keys d then keys d else keys d ++ [k] := by
  induction d with
  | nil => simp [put, keys]
  | cons p d ih =>
    obtain ⟨a, w⟩ := p
    by_cases h : a = k
    · subst h; simp [put, keys]
    · have hne : ¬ k = a := fun e => h e.symm
      have : keys (put ((a, w) :: d) k v) = a :: keys (Dict.put d k v) := by simp [put, h, keys]
      rw [this, ih]
      by_cases h2 : k ∈ keys d
      · have : k ∈ keys ((a, w) :: d) := by simp [keys] at h2 ⊢; exact Or.inr h2
        simp [h2, this]; rfl
      · have : ¬ k ∈ keys ((a, w) :: d) := by simp [keys, hne] at h2 ⊢; exact h2
        simp [h2, this]; rfl

theorem wf_put (d : Dict K V) (k : K) (v : V) (h : Wf d) : Wf (d.put k v) := by
  unfold Wf
  rw [keys_put]
  split
  · exact h
  · rename_i hk
    rw [List.nodup_append]
    refine ⟨h, by simp, ?_⟩
    intro a ha b hb
    simp at hb
    subst hb
    intro e; subst e; exact hk ha

theorem del_eq_filter (d : Dict K V) (k : K) : d.del k = d.filter (fun p => p.1 ≠ k) := by
  induction d with
  | nil => rfl
  | cons p d ih =>
    obtain ⟨a, w⟩ := p
    by_cases h : a = k <;> simp [del, h, ih]

theorem wf_del (d : Dict K V) (k : K) (h : Wf d) : Wf (d.del k) := by
  unfold Wf keys at *
  rw [del_eq_filter]
  exact h.sublist (List.Sublist.map _ List.filter_sublist)

theorem get_mem (d : Dict K V) (k : K) (v : V) (h : d.get k = some v) : (k, v) ∈ d := by
  induction d with
  | nil => simp [get] at h
  | cons p d ih =>
    obtain ⟨a, w⟩ := p
    by_cases e : a = k
    · subst e; simp [get] at h; simp [h]
    · simp [get, e] at h; simp [ih h]

theorem mem_get (d : Dict K V) (k : K) (v : V) (hd : Wf d) (h : (k, v) ∈ d) : d.get k = some v := by
  induction d with
  | nil => simp at h
  | cons p d ih =>
    obtain ⟨a, w⟩ := p
    simp [Wf, keys] at hd
    simp at h
    rcases h with ⟨rfl, rfl⟩ | h
    · simp [get]
    · have : ¬ a = k := by
        intro e; subst e; exact hd.1 v h
      simp [get, this]
      exact ih hd.2 h

end Dict
end Pkm
