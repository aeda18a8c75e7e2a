import Verif.Install.Model
set_option linter.unusedVariables false
set_option linter.unusedSimpArgs false
/-
Helper lemmas for the installation plan.
-/
namespace Pkm
namespace Install

variable {D : Type} [DecidableEq D]

section dictBy
variable {K V : Type} [DecidableEq K]

theorem dictBy_foldl_get (key : V → K) (xs : List V) : ∀ (d : Dict K V) (k : K),
    (xs.foldl (fun d x => d.put (key x) x) d).get k =
      ((xs.filter (fun x => decide (key x = k))).getLast?).or (d.get k) := by
  induction xs with
  | nil => intro d k; simp
  | cons x xs ih =>
    intro d k
    rw [List.foldl_cons, ih, Dict.get_put]
    by_cases h : key x = k
    · rw [List.filter_cons_of_pos (by simpa using h), if_pos h, List.getLast?_cons]
      cases (xs.filter (fun x => decide (key x = k))).getLast? <;> simp
    · rw [List.filter_cons_of_neg (by simpa using h), if_neg h]

theorem dictBy_get (key : V → K) (xs : List V) (k : K) :
    (dictBy key xs).get k = (xs.filter (fun x => decide (key x = k))).getLast? := by
  unfold dictBy
  rw [dictBy_foldl_get]
  simp [Dict.get]

theorem dictBy_foldl_wf (key : V → K) (xs : List V) : ∀ (d : Dict K V), Dict.Wf d →
    Dict.Wf (xs.foldl (fun d x => d.put (key x) x) d) := by
  induction xs with
  | nil => intro d h; exact h
  | cons x xs ih => intro d h; exact ih _ (Dict.wf_put _ _ _ h)

theorem dictBy_wf (key : V → K) (xs : List V) : Dict.Wf (dictBy key xs) :=
  dictBy_foldl_wf key xs [] (by simp [Dict.Wf, Dict.keys])

theorem dictBy_get_key (key : V → K) (xs : List V) (k : K) (v : V) (h : (dictBy key xs).get k = some v) :
    key v = k ∧ v ∈ xs := by
  rw [dictBy_get] at h
  have := List.mem_of_getLast? h
  simp [List.mem_filter] at this
  exact ⟨this.2, this.1⟩

theorem dictBy_get_isSome (key : V → K) (xs : List V) (x : V) (h : x ∈ xs) :
    ∃ y, (dictBy key xs).get (key x) = some y := by
  rw [dictBy_get]
  cases e : (xs.filter (fun y => decide (key y = key x))).getLast? with
  | some y => exact ⟨y, rfl⟩
  | none =>
    rw [List.getLast?_eq_none_iff] at e
    have : x ∈ xs.filter (fun y => decide (key y = key x)) := by simp [List.mem_filter, h]
    rw [e] at this; simp at this

theorem dictBy_get_nodup (key : V → K) (xs : List V) (hn : (xs.map key).Nodup) (x : V) (h : x ∈ xs) :
    (dictBy key xs).get (key x) = some x := by
  obtain ⟨y, hy⟩ := dictBy_get_isSome key xs x h
  obtain ⟨hk, hm⟩ := dictBy_get_key key xs _ _ hy
  rw [hy]
  congr 1
  clear hy
  induction xs with
  | nil => simp at h
  | cons z xs ih =>
    simp only [List.map_cons, List.nodup_cons] at hn
    rcases List.mem_cons.1 h with rfl | h'
    · rcases List.mem_cons.1 hm with rfl | hm
      · rfl
      · exact absurd (List.mem_map.2 ⟨y, hm, hk⟩) hn.1
    · rcases List.mem_cons.1 hm with hz | hm
      · subst hz; exact absurd (List.mem_map.2 ⟨x, h', hk.symm⟩) hn.1
      · exact ih hn.2 h' hm

theorem dictBy_get_none (key : V → K) (xs : List V) (k : K) :
    (dictBy key xs).get k = none ↔ ∀ x ∈ xs, key x ≠ k := by
  rw [dictBy_get, List.getLast?_eq_none_iff, List.filter_eq_nil_iff]
  simp

end dictBy

theorem mem_keys_iff {K V : Type} [DecidableEq K] (d : Dict K V) (k : K) :
    k ∈ Dict.keys d ↔ ∃ v, d.get k = some v := by
  constructor
  · intro h
    cases e : d.get k with
    | some v => exact ⟨v, rfl⟩
    | none => exact absurd h ((Dict.get_none_iff d k).1 e)
  · rintro ⟨v, hv⟩
    apply Classical.byContradiction
    intro hn
    rw [(Dict.get_none_iff d k).2 hn] at hv
    simp at hv

theorem mem_keys_cons {K V : Type} [DecidableEq K] (k : K) (p : V) (l : Dict K V) (j : K) :
    j ∈ Dict.keys ((k, p) :: l) ↔ j = k ∨ j ∈ Dict.keys l := by simp [Dict.keys]

/-- Every entry is stored under its own key. -/
def KeyOk {V : Type} (key : V → Text) (d : Dict Text V) : Prop := ∀ e ∈ d, key e.2 = e.1

theorem keyOk_put {V : Type} (key : V → Text) (d : Dict Text V) (v : V) (h : KeyOk key d) :
    KeyOk key (d.put (key v) v) := by
  induction d with
  | nil => intro e he; simp [Dict.put] at he; subst he; rfl
  | cons p d ih =>
    obtain ⟨a, w⟩ := p
    intro e he
    unfold Dict.put at he
    split at he
    · rename_i hh
      rcases List.mem_cons.1 he with rfl | he
      · exact hh.symm
      · exact h e (by simp [he])
    · rcases List.mem_cons.1 he with rfl | he
      · exact h _ (by simp)
      · exact ih (fun x hx => h x (by simp [hx])) e he

theorem keyOk_dictBy {V : Type} (key : V → Text) (xs : List V) : KeyOk key (dictBy key xs) := by
  unfold dictBy
  suffices ∀ d : Dict Text V, KeyOk key d → KeyOk key (xs.foldl (fun d x => d.put (key x) x) d) from
    this [] (by intro e he; simp at he)
  induction xs with
  | nil => intro d h; exact h
  | cons x xs ih => intro d h; exact ih _ (keyOk_put key d x h)

theorem keyOk_del {V : Type} (key : V → Text) (d : Dict Text V) (k : Text) (h : KeyOk key d) :
    KeyOk key (d.del k) := by
  intro e he
  rw [Dict.del_eq_filter] at he
  exact h e (List.mem_filter.1 he).1

theorem keyOk_get {V : Type} (key : V → Text) (d : Dict Text V) (k : Text) (v : V) (h : KeyOk key d)
    (hv : d.get k = some v) : key v = k := h _ (Dict.get_mem _ _ _ hv)

theorem decideOp_key (plan : Plan D) (i : Inst D) (p : Pkg D) (h : i.key = p.key) :
    (decideOp plan i p).1.key = p.key := by
  unfold decideOp
  split
  · split
    · rfl
    · split
      · exact h
      · rfl
  · rfl

/-- The operation chosen for a planned package. -/
def opFor (plan : Plan D) (pre : Option (Inst D)) (p : Pkg D) : Pkg D × Op :=
  match pre with
  | none => (p, .install)
  | some i => decideOp plan i p

theorem opsLoop_spec (plan : Plan D) : ∀ (l : Dict Text (Pkg D)) (pre : Dict Text (Inst D)),
    Dict.Wf l → KeyOk Pkg.key l → Dict.Wf pre → KeyOk Inst.key pre →
    (opsLoop plan l pre).1 = l.map (fun e => opFor plan (pre.get e.1) e.2) ∧
    Dict.Wf (opsLoop plan l pre).2 ∧ KeyOk Inst.key (opsLoop plan l pre).2 ∧
    ∀ j, (opsLoop plan l pre).2.get j = if j ∈ Dict.keys l then none else pre.get j := by
  intro l
  induction l with
  | nil => intro pre _ _ h1 h2; exact ⟨rfl, h1, h2, by intro j; simp [opsLoop, Dict.keys]⟩
  | cons e l ih =>
    obtain ⟨k, p⟩ := e
    intro pre hl hk h1 h2
    simp only [Dict.Wf, Dict.keys, List.map_cons, List.nodup_cons] at hl
    have hk' : KeyOk Pkg.key l := fun x hx => hk x (by simp [hx])
    have hne : ∀ x ∈ l, x.1 ≠ k := fun x hx he => hl.1 (List.mem_map.2 ⟨x, hx, he⟩)
    cases hg : Dict.get pre k with
    | none =>
      obtain ⟨i1, i2, i3, i4⟩ := ih pre hl.2 hk' h1 h2
      have hloop : opsLoop plan ((k, p) :: l) pre =
          ((p, .install) :: (opsLoop plan l pre).1, (opsLoop plan l pre).2) := by
        simp [opsLoop, hg]
      rw [hloop]
      refine ⟨by simp [i1, opFor, hg], i2, i3, ?_⟩
      intro j
      rw [i4]
      by_cases hj : k = j
      · subst hj
        simp [mem_keys_cons, hg]
      · have : ¬ j = k := fun e => hj e.symm
        simp [mem_keys_cons, this]
    | some i =>
      obtain ⟨i1, i2, i3, i4⟩ := ih (pre.del k) hl.2 hk' (Dict.wf_del _ _ h1) (keyOk_del _ _ _ h2)
      have hloop : opsLoop plan ((k, p) :: l) pre =
          (decideOp plan i p :: (opsLoop plan l (pre.del k)).1, (opsLoop plan l (pre.del k)).2) := by
        simp [opsLoop, hg]
      rw [hloop]
      refine ⟨?_, i2, i3, ?_⟩
      · simp only [List.map_cons, hg, opFor, i1]
        congr 1
        apply List.map_congr_left
        intro x hx
        rw [Dict.get_del, if_neg (fun e => hne x hx e.symm)]
      · intro j
        rw [i4, Dict.get_del]
        by_cases hj : k = j
        · subst hj; simp [mem_keys_cons]
        · have : ¬ j = k := fun e => hj e.symm
          simp [mem_keys_cons, this, hj]

theorem runTasks_spec (auto : Text → StoreMode) (plan : Plan D) : ∀ (ts : List (Pkg D × Op))
    (site : Dict Text (Inst D)), (ts.map (·.1.key)).Nodup →
    (∀ t ∈ ts, ∃ r, effect auto plan t (site.get t.1.key) = some r) →
    ∃ site', runTasks auto plan ts site = some site' ∧
      (∀ t ∈ ts, effect auto plan t (site.get t.1.key) = some (site'.get t.1.key)) ∧
      ∀ k, k ∉ ts.map (·.1.key) → site'.get k = site.get k := by
  intro ts
  induction ts with
  | nil => intro site _ _; exact ⟨site, rfl, by simp, by simp⟩
  | cons t ts ih =>
    intro site hn he
    simp only [List.map_cons, List.nodup_cons] at hn
    obtain ⟨r, hr⟩ := he t (by simp)
    have h1 : ∃ s1, runTask auto plan site t = some s1 ∧ ∀ k, s1.get k = if t.1.key = k then r else site.get k := by
      unfold runTask
      rw [hr]
      cases r with
      | none => exact ⟨_, rfl, fun k => Dict.get_del _ _ _⟩
      | some i => exact ⟨_, rfl, fun k => Dict.get_put _ _ _ _⟩
    obtain ⟨s1, hs1, hg⟩ := h1
    have hne : ∀ u ∈ ts, t.1.key ≠ u.1.key := fun u hu e => hn.1 (List.mem_map.2 ⟨u, hu, e.symm⟩)
    obtain ⟨s2, hs2, h3, h4⟩ := ih s1 hn.2 (by
      intro u hu
      rw [hg, if_neg (hne u hu)]
      exact he u (by simp [hu]))
    refine ⟨s2, by simp [runTasks, hs1, hs2], ?_, ?_⟩
    · intro u hu
      rcases List.mem_cons.1 hu with rfl | hu
      · rw [hr, h4 _ hn.1, hg, if_pos rfl]
      · have := h3 u hu
        rw [hg, if_neg (hne u hu)] at this
        exact this
    · intro k hk
      simp only [List.map_cons, List.mem_cons, not_or] at hk
      rw [h4 k hk.2, hg, if_neg (fun e => hk.1 e.symm)]

end Install
end Pkm
