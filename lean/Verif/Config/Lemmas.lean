import Verif.Config.Spec
set_option linter.unusedVariables false
set_option linter.unusedSimpArgs false
/-
Lemmas about dotted keys and about reading back what was written.
-/
namespace Pkm
namespace Config

variable {V : Type}

theorem look_cons (t : Table) (k : Text) (ks : List Text) :
    look (k :: ks) (.table t) = (Dict.get t k).bind (look ks) := by
  simp only [look]
  cases Dict.get t k <;> rfl

theorem look_put (t : Table) (k j : Text) (r : Raw) (ks : List Text) :
    look (j :: ks) (.table (Dict.put t k r)) = if k = j then look ks r else look (j :: ks) (.table t) := by
  rw [look_cons, look_cons, Dict.get_put]
  by_cases h : k = j <;> simp [h]

theorem look_del (t : Table) (k j : Text) (ks : List Text) :
    look (j :: ks) (.table (Dict.del t k)) = if k = j then none else look (j :: ks) (.table t) := by
  rw [look_cons, look_cons, Dict.get_del]
  by_cases h : k = j <;> simp [h]

/-- Nothing that is not a table lies on the way to a key. -/
def Open (t : Table) (k : List Text) : Prop :=
  ∀ p, p ≠ [] → p <+: k → p ≠ k → ∀ r, look p (.table t) = some r → ∃ s, r = .table s

theorem open_tail {t s : Table} {k : Text} {ks : List Text} (h : Open t (k :: ks))
    (hg : Dict.get t k = some (.table s)) : Open s ks := by
  intro p hp hpre hne r hl
  refine h (k :: p) (by simp) (by simpa using hpre) (by simpa using hne) r ?_
  rw [look_cons, hg]
  exact hl

theorem unrelated_tail {k : Text} {p q : List Text} (h : Unrelated (k :: p) (k :: q)) : Unrelated p q := by
  simpa [Unrelated] using h

theorem unrelated_ne {p q : List Text} (h : Unrelated p q) : p ≠ [] ∧ q ≠ [] := by
  constructor
  · rintro rfl; exact h.1 (List.nil_prefix)
  · rintro rfl; exact h.2 (List.nil_prefix)

theorem open_nil (ks : List Text) : Open [] ks := by
  intro p hp _ _ r hr
  cases p with
  | nil => exact absurd rfl hp
  | cons a p => simp [look, Dict.get] at hr

theorem nextTable_open {t : Table} {k k' : Text} {ks : List Text} (h : Open t (k :: k' :: ks)) :
    ∃ s, nextTable (Dict.get t k) = some s ∧ Open s (k' :: ks) ∧
      (∀ j js, look (j :: js) (.table s) = look (k :: j :: js) (.table t)) := by
  cases hg : Dict.get t k with
  | none => exact ⟨[], rfl, open_nil _, by intro j js; simp [look, hg, Dict.get]⟩
  | some r =>
    obtain ⟨s, rfl⟩ := h [k] (by simp) (by simp) (by simp) r (by simp [look, hg])
    exact ⟨s, rfl, open_tail h hg, by intro j js; simp [look, hg]⟩

/-- What `_shove_key` does to the places of a table. -/
theorem shove_spec (k : List Text) (hk : k ≠ []) : ∀ (t : Table) (v : Raw), Open t k →
    ∃ t', shoveKey t k v = .ok t' ∧ look k (.table t') = some v ∧
      (∀ p, Unrelated p k → look p (.table t') = look p (.table t)) ∧
      (∀ p, p <+: k → p ≠ k → ∃ s, look p (.table t') = some (.table s)) := by
  induction k with
  | nil => exact absurd rfl hk
  | cons k ks ih =>
    intro t v ho
    cases ks with
    | nil =>
      refine ⟨Dict.put t k v, rfl, by rw [look_put]; simp [look], ?_, ?_⟩
      · intro p hp
        cases p with
        | nil => exact absurd rfl (unrelated_ne hp).1
        | cons a p =>
          rw [look_put]
          have : ¬ k = a := by
            rintro rfl
            exact hp.2 (by simp)
          simp [this]
      · intro p hp hne
        cases p with
        | nil => exact ⟨_, rfl⟩
        | cons a p =>
          simp at hp
          obtain ⟨rfl, rfl⟩ := hp
          exact absurd rfl hne
    | cons k' ks =>
      obtain ⟨s, hs, hos, hlook⟩ := nextTable_open ho
      obtain ⟨s', hs', h1, h2, h3⟩ := ih (by simp) s v hos
      refine ⟨Dict.put t k (.table s'), by simp [shoveKey, hs, hs'], ?_, ?_, ?_⟩
      · rw [look_put]; simpa using h1
      · intro p hp
        cases p with
        | nil => exact absurd rfl (unrelated_ne hp).1
        | cons a p =>
          rw [look_put]
          by_cases e : k = a
          · subst e
            have hu := unrelated_tail hp
            simp only [if_true]
            rw [h2 p hu]
            cases p with
            | nil => exact absurd rfl (unrelated_ne hu).1
            | cons j js => exact hlook j js
          · simp [e]
      · intro p hp hne
        cases p with
        | nil => exact ⟨_, rfl⟩
        | cons a p =>
          rw [look_put]
          have : a = k ∧ p <+: k' :: ks := by simpa using hp
          obtain ⟨rfl, hp'⟩ := this
          simp only [if_true]
          exact h3 p hp' (by rintro rfl; exact hne rfl)

/-- What `_pop_key` does to the places of a table. -/
theorem pop_spec (k : List Text) (hk : k ≠ []) : ∀ (t : Table), Open t k →
    ∃ t', popKey t k = .ok ((look k (.table t)).getD .null, t') ∧
      (∀ p, Unrelated p k → look p (.table t') = look p (.table t)) ∧
      (∀ p r, look p (.table t') = some r → ∃ r', look p (.table t) = some r' ∧
        (r = r' ∨ ((∃ s, r = .table s) ∧ ∃ s, r' = .table s))) := by
  induction k with
  | nil => exact absurd rfl hk
  | cons k ks ih =>
    intro t ho
    cases ks with
    | nil =>
      refine ⟨Dict.del t k, ?_, ?_, ?_⟩
      · simp only [popKey, look]
        cases Dict.get t k <;> rfl
      · intro p hp
        cases p with
        | nil => exact absurd rfl (unrelated_ne hp).1
        | cons a p =>
          rw [look_del]
          have : ¬ k = a := by
            rintro rfl
            exact hp.2 (by simp)
          simp [this]
      · intro p r hr
        cases p with
        | nil => exact ⟨_, rfl, Or.inr ⟨by simp [look] at hr; exact ⟨_, hr.symm⟩, _, rfl⟩⟩
        | cons a p =>
          rw [look_del] at hr
          by_cases e : k = a
          · simp [e] at hr
          · simp [e] at hr
            exact ⟨r, hr, Or.inl rfl⟩
    | cons k' ks =>
      cases hg : Dict.get t k with
      | none =>
        refine ⟨t, by simp [popKey, look, hg], by intros; rfl, ?_⟩
        intro p r hr
        exact ⟨r, hr, Or.inl rfl⟩
      | some r =>
        obtain ⟨s, rfl⟩ := ho [k] (by simp) (by simp) (by simp) r (by simp [look, hg])
        by_cases hf : (Raw.table s).falsy = true
        · have hs : s = [] := by simpa [Raw.falsy] using hf
          subst hs
          refine ⟨t, by simp [popKey, look, hg, Dict.get, Raw.falsy], by intros; rfl, ?_⟩
          intro p r hr
          exact ⟨r, hr, Or.inl rfl⟩
        · obtain ⟨s', hs', h1, h2⟩ := ih (by simp) s (open_tail ho hg)
          refine ⟨Dict.put t k (.table s'), ?_, ?_, ?_⟩
          · simp [popKey, hg, hf, hs', look_cons t]
          · intro p hp
            cases p with
            | nil => exact absurd rfl (unrelated_ne hp).1
            | cons a p =>
              rw [look_put]
              by_cases e : k = a
              · subst e
                have hu := unrelated_tail hp
                simp only [if_true]
                rw [h1 p hu, look_cons, hg]
                rfl
              · simp [e]
          · intro p r hr
            cases p with
            | nil => exact ⟨_, rfl, Or.inr ⟨by simp [look] at hr; exact ⟨_, hr.symm⟩, _, rfl⟩⟩
            | cons a p =>
              rw [look_put] at hr
              by_cases e : k = a
              · subst e
                simp only [if_true] at hr
                obtain ⟨r', hr', h⟩ := h2 p r hr
                exact ⟨r', by rw [look_cons, hg]; exact hr', h⟩
              · simp only [e, if_false] at hr
                exact ⟨r, hr, Or.inl rfl⟩

/-! ### Dotted keys -/

theorem only_mono {K K' : List (List Text)} {t : Table} (h : Only K t) (hs : ∀ k ∈ K, k ∈ K') : Only K' t := by
  intro p hp r hr
  rcases h p hp r hr with ⟨k, hk, h1⟩ | ⟨h0, k, hk, h1⟩
  · exact Or.inl ⟨k, hs k hk, h1⟩
  · exact Or.inr ⟨h0, k, hs k hk, h1⟩

theorem prefix_ne_len {p k : List Text} (h : p <+: k) (hne : p ≠ k) : p.length < k.length := by
  rcases Nat.lt_or_ge p.length k.length with h' | h'
  · exact h'
  · exact absurd (h.eq_of_length_le h') hne

theorem unrelated_or_eq_open {K : List (List Text)} {t : Table} {k : List Text} (h : Only K t)
    (hk : ∀ k' ∈ K, k' = k ∨ Unrelated k' k) : Open t k := by
  intro p hp hpre hne r hr
  rcases h p hp r hr with ⟨k', hk', h1⟩ | ⟨h0, _⟩
  · rcases hk k' hk' with rfl | hu
    · have := h1.length_le
      have := prefix_ne_len hpre hne
      omega
    · exact absurd (h1.trans hpre) hu.1
  · exact h0

theorem unrelated_look {K : List (List Text)} {t : Table} {k : List Text} (h : Only K t) (hk0 : k ≠ [])
    (hk : ∀ k' ∈ K, Unrelated k' k) : look k (.table t) = none := by
  cases hl : look k (.table t) with
  | none => rfl
  | some r =>
    rcases h k hk0 r hl with ⟨k', hk', h1⟩ | ⟨_, k', hk', h1⟩
    · exact absurd h1 (hk k' hk').1
    · exact absurd h1 (hk k' hk').2

theorem only_shove {K : List (List Text)} {t t' : Table} {k : List Text} {v : Raw} (h : Only K t)
    (h2 : ∀ p, Unrelated p k → look p (.table t') = look p (.table t))
    (h3 : ∀ p, p <+: k → p ≠ k → ∃ s, look p (.table t') = some (.table s)) : Only (k :: K) t' := by
  intro p hp r hr
  by_cases e1 : k <+: p
  · exact Or.inl ⟨k, by simp, e1⟩
  · by_cases e2 : p <+: k
    · obtain ⟨s, hs⟩ := h3 p e2 (by rintro rfl; exact e1 (List.prefix_refl _))
      rw [hs] at hr
      exact Or.inr ⟨⟨s, by simpa using hr.symm⟩, k, by simp, e2⟩
    · rw [h2 p ⟨e2, e1⟩] at hr
      exact only_mono h (by intro a ha; simp [ha]) p hp r hr

theorem only_pop {K : List (List Text)} {t t' : Table} (h : Only K t)
    (h2 : ∀ p r, look p (.table t') = some r → ∃ r', look p (.table t) = some r' ∧
        (r = r' ∨ ((∃ s, r = .table s) ∧ ∃ s, r' = .table s))) : Only K t' := by
  intro p hp r hr
  obtain ⟨r', hr', e⟩ := h2 p r hr
  rcases h p hp r' hr' with h1 | ⟨h0, h1⟩
  · exact Or.inl h1
  · refine Or.inr ⟨?_, h1⟩
    rcases e with rfl | ⟨e, _⟩
    · exact h0
    · exact e

/-- Every field of a class has a value that is read back, or may be absent. -/
def ReadBack : Fields V → List (Text × Val V) → Prop
  | .nil, _ => True
  | .cons f t rest, vals =>
    (f.leftover = true → ∃ l, attr vals f.name = .raw (.table l)) ∧
    (f.leftover = false → (attr vals f.name = .none ∧ f.required = false ∧ f.default = .none) ∨
      (attr vals f.name ≠ .none ∧ ∃ r, unparse t (attr vals f.name) = .ok r ∧ r ≠ .null ∧
        parse t r = .ok (attr vals f.name))) ∧
    ReadBack rest vals

theorem stored_congr (fs : Fields V) (vals : List (Text × Val V)) (d d' : Table) (hl : fs.leftovers = 0)
    (h : ∀ k ∈ fs.keys, look k (.table d') = look k (.table d)) (hs : Stored fs vals d) : Stored fs vals d' := by
  match fs with
  | .nil => trivial
  | .cons f t rest =>
    have hlf : f.leftover = false := by
      cases hh : f.leftover with
      | false => rfl
      | true => simp [Fields.leftovers, hh] at hl
    have hl' : rest.leftovers = 0 := by simpa [Fields.leftovers, hlf] using hl
    simp only [Fields.keys, hlf, Bool.false_eq_true, if_false] at h
    refine ⟨?_, stored_congr rest vals d d' hl' (fun k hk => h k (by simp [hk])) hs.2⟩
    rw [h f.key (by simp)]
    exact hs.1

theorem unparse_dotted (fs : Fields V) (vals : List (Text × Val V)) :
    ∀ (K : List (List Text)) (d : Table), ReadBack fs vals → fs.leftovers = 0 → (∀ k ∈ fs.keys, k ≠ []) →
    fs.keys.Pairwise Unrelated → (∀ k ∈ K, ∀ k' ∈ fs.keys, Unrelated k k') → Only K d →
    ∃ d', unparseFields fs vals d = .ok d' ∧ Only (K ++ fs.keys) d' ∧ Stored fs vals d' ∧
      (∀ k, (∀ k' ∈ fs.keys, Unrelated k k') → look k (.table d') = look k (.table d)) := by
  match fs with
  | .nil =>
    intro K d _ _ _ _ _ ho
    exact ⟨d, rfl, by simpa [Fields.keys] using ho, trivial, by intros; rfl⟩
  | .cons f t rest =>
    intro K d hrb hl hne hpw hK ho
    have hlf : f.leftover = false := by
      cases hh : f.leftover with
      | false => rfl
      | true => simp [Fields.leftovers, hh] at hl
    have hl' : rest.leftovers = 0 := by simpa [Fields.leftovers, hlf] using hl
    simp only [Fields.keys, hlf, Bool.false_eq_true, if_false] at hne hpw hK ⊢
    rw [List.pairwise_cons] at hpw
    have hfk : f.key ≠ [] := hne f.key (by simp)
    have hKf : ∀ k' ∈ K, Unrelated k' f.key := fun k' hk' => hK k' hk' f.key (by simp)
    rcases hrb.2.1 hlf with ⟨hn, hreq, hdef⟩ | ⟨hv, r, hun, hr, hpa⟩
    · have hnone := unrelated_look ho hfk hKf
      obtain ⟨d', h1, h2, h3, h4⟩ := unparse_dotted rest vals K d hrb.2.2 hl' (fun k hk => hne k (by simp [hk])) hpw.2
        (fun k hk k' hk' => hK k hk k' (by simp [hk'])) ho
      refine ⟨d', by rw [unparseFields]; simp [hn, h1], only_mono h2 (by simp; intro a ha; rcases ha with h | h <;> simp [h]), ⟨Or.inl ⟨hn, hreq, hdef, ?_⟩, h3⟩, ?_⟩
      · rw [h4 f.key hpw.1]; exact hnone
      · intro k hk
        exact h4 k (fun k' hk' => hk k' (by simp [hk']))
    · have hopen : Open d f.key := unrelated_or_eq_open ho (fun k' hk' => Or.inr (hKf k' hk'))
      obtain ⟨d1, e1, e2, e3, e4⟩ := shove_spec f.key hfk d r hopen
      have ho1 : Only (f.key :: K) d1 := only_shove (v := r) ho e3 e4
      obtain ⟨d', h1, h2, h3, h4⟩ := unparse_dotted rest vals (f.key :: K) d1 hrb.2.2 hl' (fun k hk => hne k (by simp [hk])) hpw.2
        (by
          intro k hk k' hk'
          rcases List.mem_cons.1 hk with rfl | hk
          · exact hpw.1 k' hk'
          · exact hK k hk k' (by simp [hk'])) ho1
      refine ⟨d', ?_, only_mono h2 (by intro a ha; simp at ha ⊢; rcases ha with h | h | h <;> simp [h]), ⟨Or.inr ⟨r, ?_, hun, hr, hpa⟩, h3⟩, ?_⟩
      · rw [unparseFields]
        simp only [hlf, hun, e1, h1]; rfl
      · rw [h4 f.key hpw.1]; exact e2
      · intro k hk
        rw [h4 k (fun k' hk' => hk k' (by simp [hk']))]
        exact e3 k (hk f.key (by simp))

/-- The attributes of an object in the order of the schema. -/
def attrs (fs : Fields V) (vals : List (Text × Val V)) : List (Text × Val V) :=
  fs.names.map (fun n => (n, attr vals n))

theorem fieldErr_ok {A : Type} (f : Field V) (t : Ty V) (a : A) : fieldErr f t (.ok a : Except Err A) = .ok a := rfl

theorem parse_dotted (fs : Fields V) (vals : List (Text × Val V)) :
    ∀ (K : List (List Text)) (d : Table), fs.leftovers = 0 → (∀ k ∈ fs.keys, k ≠ []) → fs.keys.Pairwise Unrelated →
    (∀ k ∈ K, ∀ k' ∈ fs.keys, k = k' ∨ Unrelated k k') → Only K d → Stored fs vals d →
    ∃ d', parseFields fs d = .ok (attrs fs vals, d') := by
  match fs with
  | .nil => intro K d _ _ _ _ _ _; exact ⟨d, rfl⟩
  | .cons f t rest =>
    intro K d hl hne hpw hK ho hst
    have hlf : f.leftover = false := by
      cases hh : f.leftover with
      | false => rfl
      | true => simp [Fields.leftovers, hh] at hl
    have hl' : rest.leftovers = 0 := by simpa [Fields.leftovers, hlf] using hl
    simp only [Fields.keys, hlf, Bool.false_eq_true, if_false] at hne hpw hK
    rw [List.pairwise_cons] at hpw
    have hfk : f.key ≠ [] := hne f.key (by simp)
    have hopen : Open d f.key := unrelated_or_eq_open ho (fun k hk => hK k hk f.key (by simp))
    obtain ⟨d1, e1, e2, e3⟩ := pop_spec f.key hfk d hopen
    have ho1 := only_pop ho e3
    have hst1 : Stored rest vals d1 := stored_congr rest vals d d1 hl'
      (fun k hk => e2 k ⟨(hpw.1 k hk).2, (hpw.1 k hk).1⟩) hst.2
    obtain ⟨d', h⟩ := parse_dotted rest vals K d1 hl' (fun k hk => hne k (by simp [hk])) hpw.2
      (fun k hk k' hk' => hK k hk k' (by simp [hk'])) ho1 hst1
    refine ⟨d', ?_⟩
    rw [parseFields]
    simp only [hlf, Bool.false_eq_true, if_false, e1]
    rcases hst.1 with ⟨hn, hreq, hdef, hlook⟩ | ⟨r, hlook, _, hr, hpa⟩
    · simp [hlook, absent, hreq, hdef, h, consField, attrs, Fields.names, hn]
    · simp only [hlook, Option.getD_some]
      cases r with
      | null => exact absurd rfl hr
      | _ => simp [hpa, fieldErr, h, consField, attrs, Fields.names]

/-! ### Keys without dots and a field for what is left -/

theorem put_fresh (d : Table) (k : Text) (v : Raw) (h : k ∉ d.map (·.1)) : Dict.put d k v = d ++ [(k, v)] := by
  induction d with
  | nil => rfl
  | cons e d ih =>
    obtain ⟨a, w⟩ := e
    have : ¬ a = k := by rintro rfl; simp at h
    simp [Dict.put, this, ih (by simp at h ⊢; exact h.2)]

theorem update_fresh (l : Table) : ∀ d : Table, (d.map (·.1) ++ l.map (·.1)).Nodup → update d l = d ++ l := by
  induction l with
  | nil => intro d _; simp [update]
  | cons e l ih =>
    intro d h
    obtain ⟨k, v⟩ := e
    have hk : k ∉ d.map (·.1) := by
      intro hk
      rw [List.nodup_append] at h
      exact h.2.2 k hk k (by simp) rfl
    rw [update, put_fresh d k v hk, ih]
    · simp
    · simpa using h

theorem get_mid (d s : Table) (k : Text) (r : Raw) (h : k ∉ d.map (·.1)) : Dict.get (d ++ (k, r) :: s) k = some r := by
  induction d with
  | nil => simp [Dict.get]
  | cons e d ih =>
    obtain ⟨a, w⟩ := e
    have : ¬ a = k := by rintro rfl; simp at h
    simp [Dict.get, this, ih (by simp at h ⊢; exact h.2)]

theorem del_mid (d s : Table) (k : Text) (r : Raw) (h : k ∉ d.map (·.1)) (h' : k ∉ s.map (·.1)) :
    Dict.del (d ++ (k, r) :: s) k = d ++ s := by
  rw [Dict.del_eq_filter, List.filter_append, List.filter_cons]
  simp only [ne_eq, not_true_eq_false, decide_false, Bool.false_eq_true, if_false]
  congr 1
  · rw [List.filter_eq_self]
    intro p hp
    simp
    rintro rfl
    exact h (List.mem_map.2 ⟨p, hp, rfl⟩)
  · rw [List.filter_eq_self]
    intro p hp
    simp
    rintro rfl
    exact h' (List.mem_map.2 ⟨p, hp, rfl⟩)

theorem del_fresh (d : Table) (k : Text) (h : k ∉ d.map (·.1)) : Dict.del d k = d := by
  rw [Dict.del_eq_filter, List.filter_eq_self]
  intro p hp
  simp
  rintro rfl
  exact h (List.mem_map.2 ⟨p, hp, rfl⟩)

/-- What the fields write, one after the other. -/
def Written : Fields V → List (Text × Val V) → Table → Prop
  | .nil, _, s => s = []
  | .cons f t rest, vals, s =>
    if f.leftover then ∃ l s', attr vals f.name = .raw (.table l) ∧ s = l ++ s' ∧ Written rest vals s'
    else (attr vals f.name = .none ∧ f.required = false ∧ f.default = .none ∧ Written rest vals s) ∨
      (∃ k r s', f.key = [k] ∧ s = (k, r) :: s' ∧ r ≠ .null ∧ parse t r = .ok (attr vals f.name) ∧
        Written rest vals s')

/-- Keys in the order of the schema, with those of what is left. -/
def flatKeys : Fields V → List (Text × Val V) → List Text
  | .nil, _ => []
  | .cons f _ fs, vals =>
    if f.leftover then (match attr vals f.name with | .raw (.table l) => l.map (·.1) | _ => []) ++ flatKeys fs vals
    else f.key ++ flatKeys fs vals

theorem flatKeys_perm (fs : Fields V) (vals : List (Text × Val V)) (ks : List Text)
    (h : fs.keys = ks.map (fun k => [k])) : (flatKeys fs vals).Perm (ks ++ (fs.rest vals).map (·.1)) := by
  match fs with
  | .nil =>
    cases ks with
    | nil => simp [flatKeys, Fields.rest]
    | cons a ks => simp [Fields.keys] at h
  | .cons f t rest =>
    cases hlf : f.leftover with
    | true =>
      simp only [Fields.keys, hlf, if_true] at h
      have ih := flatKeys_perm rest vals ks h
      simp only [flatKeys, Fields.rest, hlf, if_true]
      have : ∀ l : Table, (l.map (·.1) ++ flatKeys rest vals).Perm (ks ++ (l ++ rest.rest vals).map (·.1)) := by
        intro l
        refine (List.Perm.append_left _ ih).trans ?_
        rw [List.map_append, ← List.append_assoc, ← List.append_assoc]
        exact List.Perm.append_right _ List.perm_append_comm
      cases hv : attr vals f.name with
      | raw r =>
        cases r with
        | table l => simpa using this l
        | _ => simpa using this []
      | _ => simpa using this []
    | false =>
      simp only [Fields.keys, hlf, Bool.false_eq_true, if_false] at h
      cases ks with
      | nil => simp at h
      | cons k ks =>
        simp at h
        have ih := flatKeys_perm rest vals ks h.2
        simp only [flatKeys, Fields.rest, hlf, Bool.false_eq_true, if_false, h.1]
        simpa using ih

theorem written_keys (fs : Fields V) (vals : List (Text × Val V)) (s : Table) (h : Written fs vals s) :
    List.Sublist (s.map (·.1)) (flatKeys fs vals) := by
  match fs with
  | .nil => simp [Written] at h; simp [h]
  | .cons f t rest =>
    cases hlf : f.leftover with
    | true =>
      simp only [Written, hlf, if_true] at h
      obtain ⟨l, s', hv, rfl, h⟩ := h
      simp only [flatKeys, hlf, if_true, hv, List.map_append]
      exact (List.Sublist.refl _).append (written_keys rest vals s' h)
    | false =>
      simp only [Written, hlf, Bool.false_eq_true, if_false] at h
      simp only [flatKeys, hlf, Bool.false_eq_true, if_false]
      rcases h with ⟨_, _, _, h⟩ | ⟨k, r, s', hk, rfl, _, _, h⟩
      · exact (written_keys rest vals s h).trans (List.sublist_append_right _ _)
      · rw [hk]
        simpa using written_keys rest vals s' h

theorem unparse_flat (fs : Fields V) (vals : List (Text × Val V)) :
    ∀ (d : Table), ReadBack fs vals → (∀ k ∈ fs.keys, ∃ a, k = [a]) → (d.map (·.1) ++ flatKeys fs vals).Nodup →
    ∃ s, unparseFields fs vals d = .ok (d ++ s) ∧ Written fs vals s := by
  match fs with
  | .nil => intro d _ _ _; exact ⟨[], by simp [unparseFields], rfl⟩
  | .cons f t rest =>
    intro d hrb hks hnd
    cases hlf : f.leftover with
    | true =>
      obtain ⟨l, hl⟩ := hrb.1 hlf
      simp only [Fields.keys, hlf, if_true] at hks
      simp only [flatKeys, hlf, if_true, hl] at hnd
      rw [← List.append_assoc] at hnd
      have hu := update_fresh l d (List.nodup_append.1 hnd).1
      obtain ⟨s, h1, h2⟩ := unparse_flat rest vals (d ++ l) hrb.2.2 hks (by simpa using hnd)
      refine ⟨l ++ s, ?_, ?_⟩
      · rw [unparseFields]
        simp only [hlf, if_true, hl, hu, h1]; simp
      · simp only [Written, hlf, if_true]
        exact ⟨l, s, hl, rfl, h2⟩
    | false =>
      simp only [Fields.keys, hlf, Bool.false_eq_true, if_false] at hks
      obtain ⟨k, hk⟩ := hks f.key (by simp)
      simp only [flatKeys, hlf, Bool.false_eq_true, if_false, hk] at hnd
      have hkd : k ∉ d.map (·.1) := by
        intro hmem
        exact (List.nodup_append.1 hnd).2.2 k hmem k (by simp) rfl
      rcases hrb.2.1 hlf with ⟨hn, hreq, hdef⟩ | ⟨hv, r, hun, hr, hpa⟩
      · obtain ⟨s, h1, h2⟩ := unparse_flat rest vals d hrb.2.2 (fun a ha => hks a (by simp [ha]))
          (hnd.sublist ((List.Sublist.refl _).append (by simp)))
        refine ⟨s, by rw [unparseFields]; simp [hn, h1], ?_⟩
        simp only [Written, hlf, Bool.false_eq_true, if_false]
        exact Or.inl ⟨hn, hreq, hdef, h2⟩
      · obtain ⟨s, h1, h2⟩ := unparse_flat rest vals (d ++ [(k, r)]) hrb.2.2 (fun a ha => hks a (by simp [ha]))
          (by simpa using hnd)
        refine ⟨(k, r) :: s, ?_, ?_⟩
        · rw [unparseFields]
          simp only [hlf, Bool.false_eq_true, if_false, hun, hk, shoveKey, put_fresh d k r hkd, h1]; simp
        · simp only [Written, hlf, Bool.false_eq_true, if_false]
          exact Or.inr ⟨k, r, s, hk, rfl, hr, hpa, h2⟩

theorem rest_none (fs : Fields V) (vals : List (Text × Val V)) (h : fs.leftovers = 0) : fs.rest vals = [] := by
  match fs with
  | .nil => rfl
  | .cons f t rest =>
    have hlf : f.leftover = false := by
      cases hh : f.leftover with
      | false => rfl
      | true => simp [Fields.leftovers, hh] at h
    simp only [Fields.rest, hlf, Bool.false_eq_true, if_false]
    exact rest_none rest vals (by simpa [Fields.leftovers, hlf] using h)

theorem parse_flat (fs : Fields V) (vals : List (Text × Val V)) :
    ∀ (d s : Table), Written fs vals s → (∀ k ∈ fs.keys, ∃ a, k = [a]) → (d.map (·.1) ++ flatKeys fs vals).Nodup →
    fs.leftovers ≤ 1 → (fs.leftovers = 1 → d = []) →
    parseFields fs (d ++ s) = .ok (attrs fs vals, d ++ fs.rest vals) := by
  match fs with
  | .nil => intro d s h _ _ _ _; simp [Written] at h; subst h; rfl
  | .cons f t rest =>
    intro d s hw hks hnd hle hd
    cases hlf : f.leftover with
    | true =>
      simp only [Written, hlf, if_true] at hw
      obtain ⟨l, s', hv, rfl, hw⟩ := hw
      simp only [Fields.keys, hlf, if_true] at hks
      simp only [flatKeys, hlf, if_true, hv] at hnd
      simp only [Fields.leftovers, hlf, if_true] at hle hd
      have h0 : rest.leftovers = 0 := by omega
      have hd0 : d = [] := hd (by omega)
      subst hd0
      have ih := parse_flat rest vals l s' hw hks (by simpa using hnd) (by omega) (by omega)
      rw [parseFields]
      simp [hlf, ih, consLeftover, attrs, Fields.names, hv, Fields.rest, rest_none rest vals h0]
    | false =>
      simp only [Written, hlf, Bool.false_eq_true, if_false] at hw
      simp only [Fields.keys, hlf, Bool.false_eq_true, if_false] at hks
      obtain ⟨k, hk⟩ := hks f.key (by simp)
      simp only [flatKeys, hlf, Bool.false_eq_true, if_false, hk] at hnd
      simp only [Fields.leftovers, hlf, Bool.false_eq_true, if_false, Nat.zero_add] at hle hd
      have hkd : k ∉ d.map (·.1) := by
        intro hmem
        exact (List.nodup_append.1 hnd).2.2 k hmem k (by simp) rfl
      have hkr : k ∉ flatKeys rest vals := by
        have := (List.nodup_append.1 hnd).2.1
        simpa using (List.nodup_cons.1 this).1
      have hnd' : (d.map (·.1) ++ flatKeys rest vals).Nodup :=
        hnd.sublist ((List.Sublist.refl _).append (by simp))
      have ih := fun s' (h : Written rest vals s') =>
        parse_flat rest vals d s' h (fun a ha => hks a (by simp [ha])) hnd' hle hd
      rw [parseFields]
      simp only [hlf, Bool.false_eq_true, if_false, hk, popKey]
      rcases hw with ⟨hn, hreq, hdef, hw⟩ | ⟨k', r, s', hk', rfl, hr, hpa, hw⟩
      · have hks' : k ∉ (d ++ s).map (·.1) := by
          rw [List.map_append, List.mem_append]
          rintro (h | h)
          · exact hkd h
          · exact hkr ((written_keys rest vals s hw).subset h)
        have hg : Dict.get (d ++ s) k = none := (Dict.get_none_iff (d ++ s) k).2 hks'
        rw [hg, del_fresh _ _ hks']
        simp [absent, hreq, hdef, ih s hw, consField, attrs, Fields.names, hn, Fields.rest, hlf]
      · have : k' = k := by rw [hk] at hk'; simpa using hk'.symm
        subst this
        have hks' : k' ∉ s'.map (·.1) := fun h => hkr ((written_keys rest vals s' hw).subset h)
        rw [get_mid d s' k' r hkd, del_mid d s' k' r hkd hks']
        simp only [Option.getD_some]
        cases r with
        | null => exact absurd rfl hr
        | _ => simp [hpa, fieldErr, ih s' hw, consField, attrs, Fields.names, Fields.rest, hlf]

/-! ### Objects -/

theorem attrs_self (vals : List (Text × Val V)) (h : (vals.map (·.1)).Nodup) :
    vals.map (fun p => (p.1, attr vals p.1)) = vals := by
  have : ∀ p ∈ vals, attr vals p.1 = p.2 := by
    intro p hp
    have := Dict.mem_get vals p.1 p.2 h hp
    simp [attr, this]
  conv => rhs; rw [← List.map_id vals]
  apply List.map_congr_left
  intro p hp
  simp [this p hp]

theorem attrs_eq (fs : Fields V) (vals : List (Text × Val V)) (hn : vals.map (·.1) = fs.names) (hnd : fs.names.Nodup) :
    attrs fs vals = vals := by
  unfold attrs
  rw [← hn, List.map_map]
  exact attrs_self vals (by rw [hn]; exact hnd)

theorem mapItems_back {A B : Type} (f : A → Except Err B) (g : B → Except Err A) (l : List A)
    (h : ∀ a ∈ l, ∃ b, f a = .ok b ∧ g b = .ok a) : ∃ bs, mapItems f l = .ok bs ∧ mapItems g bs = .ok l := by
  induction l with
  | nil => exact ⟨[], rfl, rfl⟩
  | cons a l ih =>
    obtain ⟨b, h1, h2⟩ := h a (by simp)
    obtain ⟨bs, h3, h4⟩ := ih (fun x hx => h x (by simp [hx]))
    exact ⟨b :: bs, by simp [mapItems, h1, h3], by simp [mapItems, h2, h4]⟩

theorem mapValues_back {A B : Type} (f : A → Except Err B) (g : B → Except Err A) (l : List (Text × A))
    (h : ∀ p ∈ l, ∃ b, f p.2 = .ok b ∧ g b = .ok p.2) : ∃ bs, mapValues f l = .ok bs ∧ mapValues g bs = .ok l := by
  induction l with
  | nil => exact ⟨[], rfl, rfl⟩
  | cons a l ih =>
    obtain ⟨k, a⟩ := a
    obtain ⟨b, h1, h2⟩ := h (k, a) (by simp)
    obtain ⟨bs, h3, h4⟩ := ih (fun x hx => h x (by simp [hx]))
    simp only at h1 h2
    exact ⟨(k, b) :: bs, by simp [mapValues, h1, h3], by simp [mapValues, h2, h4]⟩

theorem pairwise_mem (l : List (List Text)) (h : l.Pairwise Unrelated) :
    ∀ k ∈ l, ∀ k' ∈ l, k = k' ∨ Unrelated k k' := by
  induction l with
  | nil => simp
  | cons a l ih =>
    rw [List.pairwise_cons] at h
    intro k hk k' hk'
    rcases List.mem_cons.1 hk with rfl | h1 <;> rcases List.mem_cons.1 hk' with rfl | h2
    · exact Or.inl rfl
    · exact Or.inr (h.1 k' h2)
    · exact Or.inr ⟨(h.1 k h1).2, (h.1 k h1).1⟩
    · exact ih h.2 k h1 k' h2

theorem complex_back (post : List (Text × Val V) → Except Err (List (Text × Val V))) (fs : Fields V)
    (vals : List (Text × Val V)) (hn : vals.map (·.1) = fs.names) (hnd : fs.names.Nodup)
    (hap : PlacesApart fs vals) (hpost : post vals = .ok vals) (hrb : ReadBack fs vals) :
    ∃ d, unparse (.complex post fs) (.obj vals) = .ok (.table d) ∧ parse (.complex post fs) (.table d) = .ok (.obj vals) := by
  rcases hap with ⟨h0, hne, hpw⟩ | ⟨hle, ks, hks, hnodup⟩
  · obtain ⟨d, h1, h2, h3, h4⟩ := unparse_dotted fs vals [] [] hrb h0 hne hpw (by simp)
      (by intro p hp r hr; cases p with
          | nil => exact absurd rfl hp
          | cons a p => simp [look, Dict.get] at hr)
    obtain ⟨d', h5⟩ := parse_dotted fs vals fs.keys d h0 hne hpw
      (fun k hk k' hk' => pairwise_mem fs.keys hpw k hk k' hk') (by simpa using h2) h3
    refine ⟨d, by rw [unparse]; simp [h1], ?_⟩
    rw [parse]
    simp [h5, wrapObj, attrs_eq fs vals hn hnd, hpost]
  · have hfk : (flatKeys fs vals).Nodup := (flatKeys_perm fs vals ks hks).nodup_iff.2 hnodup
    have hsingle : ∀ k ∈ fs.keys, ∃ a, k = [a] := by
      intro k hk
      rw [hks, List.mem_map] at hk
      obtain ⟨a, _, rfl⟩ := hk
      exact ⟨a, rfl⟩
    obtain ⟨s, h1, h2⟩ := unparse_flat fs vals [] hrb hsingle (by simpa using hfk)
    have h3 := parse_flat fs vals [] s h2 hsingle (by simpa using hfk) hle (fun _ => rfl)
    refine ⟨s, by rw [unparse]; simp at h1; simp [h1], ?_⟩
    rw [parse]
    simp at h3
    simp [h3, wrapObj, attrs_eq fs vals hn hnd, hpost]

theorem hasTy_not_none (t : Ty V) (v : Val V) (h : HasTy t v) : v ≠ .none := by
  cases t with
  | leaf c => rw [HasTy] at h; exact h.1
  | list t => rw [HasTy] at h; obtain ⟨l, rfl, _⟩ := h; simp
  | dict t => rw [HasTy] at h; obtain ⟨l, rfl, _⟩ := h; simp
  | complex post fs => rw [HasTy] at h; obtain ⟨l, rfl, _⟩ := h; simp
  | unknown => rw [HasTy] at h; exact h.elim

mutual
theorem back (t : Ty V) (v : Val V) (h : HasTy t v) :
    ∃ r, unparse t v = .ok r ∧ r ≠ .null ∧ parse t r = .ok v := by
  match t with
  | .leaf c =>
    rw [HasTy] at h
    obtain ⟨_, r, h1, h2, h3⟩ := h
    exact ⟨r, by rw [unparse]; exact h1, h2, by rw [parse]; exact h3⟩
  | .list t =>
    rw [HasTy] at h
    obtain ⟨l, rfl, h⟩ := h
    obtain ⟨rs, h1, h2⟩ := mapItems_back (unparse t) (parse t) l (by
      intro x hx
      obtain ⟨r, h1, _, h3⟩ := back t x (h x hx)
      exact ⟨r, h1, h3⟩)
    exact ⟨.list rs, by rw [unparse]; simp [h1], by simp, by rw [parse]; simp [Raw.items, h2]⟩
  | .dict t =>
    rw [HasTy] at h
    obtain ⟨l, rfl, h⟩ := h
    obtain ⟨rs, h1, h2⟩ := mapValues_back (unparse t) (parse t) l (by
      intro x hx
      obtain ⟨r, h1, _, h3⟩ := back t x.2 (h x hx)
      exact ⟨r, h1, h3⟩)
    exact ⟨.table rs, by rw [unparse]; simp [h1], by simp, by rw [parse]; simp [h2]⟩
  | .complex post fs =>
    rw [HasTy] at h
    obtain ⟨vals, rfl, hn, hnd, hap, hpost, hf⟩ := h
    obtain ⟨d, h1, h2⟩ := complex_back post fs vals hn hnd hap hpost (backFields fs vals hf)
    exact ⟨_, h1, by simp, h2⟩
  | .unknown => rw [HasTy] at h; exact h.elim
theorem backFields (fs : Fields V) (vals : List (Text × Val V)) (h : FieldsOk fs vals) : ReadBack fs vals := by
  match fs with
  | .nil => trivial
  | .cons f t rest =>
    rw [FieldsOk] at h
    refine ⟨h.1, ?_, backFields rest vals h.2.2⟩
    intro hlf
    rcases h.2.1 hlf with h1 | h1
    · exact Or.inl h1
    · exact Or.inr ⟨hasTy_not_none t _ h1, back t _ h1⟩
end

end Config
end Pkm
