import Verif.Cli.TaskArgs
set_option linter.unusedSimpArgs false
set_option linter.unusedVariables false
/-
Property C117 about Cli/TaskArgs.
-/
namespace Pkm
namespace TaskArgs
open Spec.Args

variable {V : Type}

theorem partitionEq_none (t : Text) (h : '=' ∉ t) : partitionEq t = (t, none) := by
  induction t with
  | nil => rfl
  | cons c s ih =>
    simp only [List.mem_cons, not_or] at h
    have hc : c ≠ '=' := fun e => h.1 e.symm
    simp [partitionEq, hc, ih h.2]

theorem partitionEq_some (n v : Text) (h : '=' ∉ n) : partitionEq (n ++ '=' :: v) = (n, some v) := by
  induction n with
  | nil => simp [partitionEq]
  | cons c s ih =>
    simp only [List.mem_cons, not_or] at h
    have hc : c ≠ '=' := fun e => h.1 e.symm
    simp [partitionEq, hc, ih h.2]

theorem word_plain (t : Text) (h : Plain t) : partitionEq (word t) = (t, none) := by
  have : ¬ (t!"--".isPrefixOf t = true) := fun e => h.2 (List.isPrefixOf_iff_prefix.1 e)
  rw [word, if_neg this, partitionEq_none _ h.1]

theorem word_named (a : Named) (h : IsName a.name) : partitionEq (word a.text) = (a.name, some a.value) := by
  cases a with
  | pair n v =>
    obtain ⟨h0, h1, h2⟩ := h
    simp only [Named.name] at h0 h1 h2
    have : ¬ (t!"--".isPrefixOf (n ++ '=' :: v) = true) := by
      cases n with
      | nil => exact absurd rfl h0
      | cons c n =>
        have hc : c ≠ '-' := by simpa using h1
        simp [List.isPrefixOf, Ne.symm hc]
    simp only [word, Named.text, this, if_false, Named.name, Named.value, Bool.false_eq_true]
    exact partitionEq_some _ _ h2
  | option n v =>
    have : word (Named.option n v).text = n ++ '=' :: v := by simp [word, Named.text, List.isPrefixOf]
    rw [this]; exact partitionEq_some _ _ h.2.2
  | flag n =>
    have hn : '=' ∉ n := h.2.2
    have : word (Named.flag n).text = n ++ '=' :: t!"True" := by
      simp [word, Named.text, List.isPrefixOf, hn]
    rw [this]; exact partitionEq_some _ _ h.2.2

/-- The dictionary of the named arguments. -/
def table (ns : List Named) (k : Dict Text Text) : Dict Text Text := ns.foldl (fun k a => k.put a.name a.value) k

theorem parseLoop_named (ns : List Named) (hn : ∀ a ∈ ns, IsName a.name) : ∀ (a : List Text) (k : Dict Text Text),
    parseLoop (ns.map Named.text) a k = .ok (a, table ns k) := by
  induction ns with
  | nil => intro a k; rfl
  | cons x ns ih =>
    intro a k
    simp only [List.map_cons, parseLoop, word_named x (hn x (by simp))]
    exact ih (fun a ha => hn a (by simp [ha])) _ _

theorem parseLoop_plain (ps : List Text) (hp : ∀ t ∈ ps, Plain t) (ws : List Text) : ∀ a : List Text,
    parseLoop (ps ++ ws) a [] = parseLoop ws (a ++ ps) [] := by
  induction ps with
  | nil => intro a; simp
  | cons x ps ih =>
    intro a
    simp only [List.cons_append, parseLoop, word_plain x (hp x (by simp)), ne_eq, not_true_eq_false, if_false]
    rw [ih (fun t ht => hp t (by simp [ht]))]
    simp

theorem parse_words (ps : List Text) (ns : List Named) (hp : ∀ t ∈ ps, Plain t) (hn : ∀ a ∈ ns, IsName a.name) :
    parse (ps ++ ns.map Named.text) = .ok (ps, table ns []) := by
  unfold parse
  rw [parseLoop_plain ps hp, parseLoop_named ns hn]
  simp

theorem table_get_or (ns : List Named) (n : Text) : ∀ k : Dict Text Text, (table ns k).get n = (given ns n).or (k.get n) := by
  induction ns with
  | nil => intro k; simp [table, given]
  | cons a ns ih =>
    intro k
    have : table (a :: ns) k = table ns (k.put a.name a.value) := rfl
    rw [this, ih, Dict.get_put]
    by_cases h : a.name = n
    · simp only [given, List.filter_cons, h, beq_self_eq_true, if_true, List.getLast?_cons]
      cases (ns.filter (fun a => a.name == n)).getLast? <;> simp
    · simp [given, List.filter_cons, h]

theorem table_get (ns : List Named) (n : Text) : (table ns []).get n = given ns n := by
  rw [table_get_or]; simp [Dict.get]

theorem table_wf (ns : List Named) (k : Dict Text Text) (hk : Dict.Wf k) : Dict.Wf (table ns k) := by
  induction ns generalizing k with
  | nil => exact hk
  | cons a ns ih => exact ih _ (Dict.wf_put _ _ _ hk)

theorem given_isSome (ns : List Named) (n : Text) : (given ns n).isSome ↔ ∃ a ∈ ns, a.name = n := by
  simp only [given, Option.isSome_map, List.getLast?_isSome, ne_eq, List.filter_eq_nil_iff, beq_iff_eq]
  constructor
  · intro h; exact Classical.byContradiction (fun hc => h (fun a ha e => hc ⟨a, ha, e⟩))
  · rintro ⟨a, ha, e⟩ h; exact h a ha e

theorem parserFor_param (ofText : Text → V) (m : Method V) (hm : (m.params.map (·.name)).Nodup) (p : Param V) (hp : p ∈ m.params) :
    parserFor ofText m p.name = p.conv := by
  have : m.params.find? (fun q => q.name == p.name) = some p := by
    generalize m.params = l at hm hp
    induction l with
    | nil => simp at hp
    | cons q l ih =>
      simp only [List.map_cons, List.nodup_cons] at hm
      rcases List.mem_cons.1 hp with rfl | hp
      · simp
      · have : q.name ≠ p.name := fun e => hm.1 (by rw [e]; exact List.mem_map_of_mem hp)
        simp [List.find?_cons, this, ih hm.2 hp]
  simp [parserFor, this]

/-- What `fill` gives each parameter. -/
theorem fill_iff (ps : List (Param V)) (kw : Dict Text V) : ∀ (pos vals : List V), fill ps pos kw = some vals ↔
    vals.length = ps.length ∧ ∀ (i : Nat) p, ps[i]? = some p → ∃ v, vals[i]? = some v ∧ (pos[i]?).or ((kw.get p.name).or p.default) = some v := by
  induction ps with
  | nil => intro pos vals; cases vals <;> simp [fill]
  | cons p ps ih =>
    intro pos vals
    cases pos with
    | cons v vs =>
      simp only [fill, Option.map_eq_some_iff, ih]
      constructor
      · rintro ⟨w, ⟨hl, h⟩, rfl⟩
        refine ⟨by simp [hl], ?_⟩
        intro i q hq
        cases i with
        | zero => exact ⟨v, by simp, by simp⟩
        | succ i => simpa using h i q (by simpa using hq)
      · rintro ⟨hl, h⟩
        cases vals with
        | nil => simp at hl
        | cons w vals =>
          obtain ⟨w', hw, hv⟩ := h 0 p (by simp)
          simp at hw hv
          refine ⟨vals, ⟨by simpa using hl, fun i q hq => ?_⟩, by rw [hv, hw]⟩
          simpa using h (i + 1) q (by simpa using hq)
    | nil =>
      simp only [fill]
      cases hg : (kw.get p.name).or p.default with
      | none =>
        simp only [reduceCtorEq, false_iff]
        rintro ⟨hl, h⟩
        obtain ⟨w, hw, hv⟩ := h 0 p (by simp)
        simp [hg] at hv
      | some v =>
        simp only [Option.map_eq_some_iff, ih]
        constructor
        · rintro ⟨w, ⟨hl, h⟩, rfl⟩
          refine ⟨by simp [hl], ?_⟩
          intro i q hq
          cases i with
          | zero =>
            simp at hq; subst hq
            exact ⟨v, by simp, by simp [hg]⟩
          | succ i => simpa using h i q (by simpa using hq)
        · rintro ⟨hl, h⟩
          cases vals with
          | nil => simp at hl
          | cons w vals =>
            obtain ⟨w', hw, hv⟩ := h 0 p (by simp)
            simp [hg] at hw hv
            refine ⟨vals, ⟨by simpa using hl, fun i q hq => ?_⟩, by rw [hv, hw]⟩
            simpa using h (i + 1) q (by simpa using hq)

theorem parsedArgs_iff (f : Text → Text → Option V) : ∀ (as ns : List Text) (vs : List V), parsedArgs f as ns = some vs ↔
    vs.length = min as.length ns.length ∧ ∀ (i : Nat) a n, as[i]? = some a → ns[i]? = some n → ∃ v, vs[i]? = some v ∧ f n a = some v := by
  intro as
  induction as with
  | nil => intro ns vs; cases vs <;> simp [parsedArgs]
  | cons a as ih =>
    intro ns vs
    cases ns with
    | nil => cases vs <;> simp [parsedArgs]
    | cons n ns =>
      simp only [parsedArgs]
      constructor
      · intro h
        split at h
        · rename_i v ws hv hws
          cases h
          obtain ⟨hl, hi⟩ := (ih ns ws).1 hws
          refine ⟨by simp [hl], ?_⟩
          intro i b k hb hk
          cases i with
          | zero => simp at hb hk; subst hb hk; exact ⟨v, by simp, hv⟩
          | succ i => simpa using hi i b k (by simpa using hb) (by simpa using hk)
        · cases h
      · rintro ⟨hl, hi⟩
        cases vs with
        | nil => simp at hl
        | cons v vs =>
          obtain ⟨w, hw, hv⟩ := hi 0 a n (by simp) (by simp)
          simp at hw; subst hw
          have := (ih ns vs).2 ⟨by simpa using hl, fun i b k hb hk => by simpa using hi (i + 1) b k (by simpa using hb) (by simpa using hk)⟩
          simp [hv, this]

theorem parsedKwargs_spec (f : Text → Text → Option V) : ∀ (k : Dict Text Text) (kw : Dict Text V), parsedKwargs f k = some kw →
    Dict.keys kw = Dict.keys k ∧ ∀ n, kw.get n = (k.get n).bind (f n) ∧ ∀ t, k.get n = some t → (f n t).isSome := by
  intro k
  induction k with
  | nil => intro kw h; cases h; simp [Dict.keys, Dict.get]
  | cons e k ih =>
    obtain ⟨n, t⟩ := e
    intro kw h
    simp only [parsedKwargs] at h
    split at h
    · rename_i v vs hv hvs
      cases h
      obtain ⟨h1, h2⟩ := ih vs hvs
      refine ⟨by simp [Dict.keys] at h1 ⊢; exact h1, ?_⟩
      intro j
      by_cases hj : n = j
      · subst hj; simp [Dict.get, hv]
      · simpa [Dict.get, hj] using h2 j
    · cases h

theorem parsedKwargs_some (f : Text → Text → Option V) : ∀ (k : Dict Text Text), Dict.Wf k →
    (∀ n t, k.get n = some t → (f n t).isSome) → ∃ kw, parsedKwargs f k = some kw := by
  intro k
  induction k with
  | nil => intro _ _; exact ⟨[], rfl⟩
  | cons e k ih =>
    obtain ⟨n, t⟩ := e
    intro hw h
    simp only [Dict.Wf, Dict.keys, List.map_cons, List.nodup_cons] at hw
    obtain ⟨kw, hkw⟩ := ih hw.2 (by
      intro j u hu
      have hj : n ≠ j := by
        rintro rfl
        exact hw.1 (List.mem_map_of_mem (Dict.get_mem _ _ _ hu))
      exact h j u (by simpa [Dict.get, hj] using hu))
    obtain ⟨v, hv⟩ := Option.isSome_iff_exists.1 (h n t (by simp [Dict.get]))
    exact ⟨(n, v) :: kw, by simp [parsedKwargs, hv, hkw]⟩

/-- C117: with at most as many arguments without name as there are parameters, followed by arguments with names, the function is called
exactly if every named argument is for another parameter and every parameter has a value that its annotation accepts, and it gets these
values. What is missing: further arguments without name, which get lost (`task_surplus_violated`), and arguments that contain `=`
(`task_equals_violated`). -/
theorem task_args_partial (ofText : Text → V) (m : Method V) (hm : (m.params.map (·.name)).Nodup) (ps : List Text) (ns : List Named)
    (hp : ∀ t ∈ ps, Plain t) (hn : ∀ a ∈ ns, IsName a.name) (hl : ps.length ≤ m.params.length) (vals rest : List V) :
    run ofText m (ps ++ ns.map Named.text) = .ok (vals, rest) ↔ Fitting m ps ns ∧ Gets m ps ns vals ∧ rest = [] := by
  have hconv : ∀ (i : Nat) p, m.params[i]? = some p → parserFor ofText m p.name = p.conv := fun i p h =>
    parserFor_param ofText m hm p (List.mem_of_getElem? h)
  have hwf : Dict.Wf (table ns []) := table_wf ns [] (by simp [Dict.Wf, Dict.keys])
  have hkeys : ∀ n, n ∈ Dict.keys (table ns []) ↔ ∃ a ∈ ns, a.name = n := by
    intro n
    rw [← given_isSome, ← table_get]
    have := Dict.get_none_iff (table ns []) n
    cases hg : (table ns []).get n <;> simp [hg] at this ⊢ <;> exact this
  have hdrop : ∀ n, n ∈ (m.params.drop ps.length).map (·.name) ↔ ∃ (i : Nat) (p : Param V), ps.length ≤ i ∧ m.params[i]? = some p ∧ p.name = n := by
    intro n
    rw [List.mem_map]
    constructor
    · rintro ⟨p, hp', rfl⟩
      obtain ⟨i, hi⟩ := List.mem_iff_getElem?.1 hp'
      rw [List.getElem?_drop] at hi
      exact ⟨_, p, Nat.le_add_right _ _, hi, rfl⟩
    · rintro ⟨i, p, hi, hq, rfl⟩
      refine ⟨p, List.mem_iff_getElem?.2 ⟨i - ps.length, ?_⟩, rfl⟩
      rw [List.getElem?_drop, show ps.length + (i - ps.length) = i by omega]; exact hq
  simp only [run, parse_words ps ns hp hn, invoke]
  constructor
  · intro h
    split at h
    · rename_i pos kw hpos hkw
      obtain ⟨hlen, hposi⟩ := (parsedArgs_iff _ _ _ _).1 hpos
      simp only [List.length_map, Nat.min_eq_left hl] at hlen
      obtain ⟨hk1, hk2⟩ := parsedKwargs_spec _ _ _ hkw
      unfold call at h
      split at h
      · cases h
      · split at h
        · cases h
        · rename_i hany
          split at h
          · rename_i vs hfill
            cases h
            rw [hlen] at hany
            obtain ⟨hf1, hf2⟩ := (fill_iff _ _ _ _).1 hfill
            have hfit : Fitting m ps ns := by
              intro a ha
              have h1 : a.name ∈ Dict.keys kw := by rw [hk1]; exact (hkeys _).2 ⟨a, ha, rfl⟩
              obtain ⟨e, he, hea⟩ := List.mem_map.1 h1
              have h2 : e.1 ∈ (m.params.drop ps.length).map (·.name) := by
                refine Classical.byContradiction (fun hc => hany (List.any_eq_true.2 ⟨e, he, ?_⟩))
                simpa only [decide_eq_true_eq] using hc
              rw [hea] at h2
              exact (hdrop _).1 h2
            refine ⟨hfit, ⟨hf1, ?_⟩, by simp [hlen, hl]⟩
            intro i p hip
            obtain ⟨v, hv, hor⟩ := hf2 i p hip
            refine ⟨v, hv, ?_⟩
            cases hpi : ps[i]? with
            | some a =>
              obtain ⟨w, hw, hc⟩ := hposi i a p.name hpi (by simp [hip])
              rw [hw] at hor
              simp at hor; subst hor
              rw [hconv i p hip] at hc
              exact .place a _ hc
            | none =>
              have : pos[i]? = none := by
                rw [List.getElem?_eq_none_iff] at hpi ⊢; omega
              rw [this] at hor
              have hget := (hk2 p.name).1
              have hsome := (hk2 p.name).2
              rw [table_get, hconv i p hip] at hget
              rw [table_get, hconv i p hip] at hsome
              cases hg : given ns p.name with
              | some t =>
                obtain ⟨w, hw⟩ := Option.isSome_iff_exists.1 (hsome t hg)
                rw [hg] at hget
                simp [hw] at hget
                simp [hget] at hor; subst hor
                exact .named t _ hg hw
              | none =>
                rw [hg] at hget
                simp at hget
                simp [hget] at hor
                exact .default _ hg hor
          · cases h
    · cases h
  · rintro ⟨hfit, ⟨hgl, hgets⟩, rfl⟩
    obtain ⟨pos, hpos⟩ : ∃ pos, parsedArgs (parserFor ofText m) ps (m.params.map (·.name)) = some pos := by
      refine ⟨vals.take ps.length, (parsedArgs_iff _ _ _ _).2 ⟨by simp; omega, ?_⟩⟩
      intro i a n ha hn'
      simp only [List.getElem?_map, Option.map_eq_some_iff] at hn'
      obtain ⟨p, hip, rfl⟩ := hn'
      obtain ⟨v, hv, hmean⟩ := hgets i p hip
      rw [ha] at hmean
      cases hmean with
      | place _ _ hc =>
        have hi : i < ps.length := (List.getElem?_eq_some_iff.1 ha).1
        exact ⟨v, by rw [List.getElem?_take, if_pos hi]; exact hv, by rw [hconv i p hip]; exact hc⟩
    obtain ⟨hlen, hposi⟩ := (parsedArgs_iff _ _ _ _).1 hpos
    simp only [List.length_map, Nat.min_eq_left hl] at hlen
    obtain ⟨kw, hkw⟩ := parsedKwargs_some (parserFor ofText m) (table ns []) hwf (by
      intro n t ht
      obtain ⟨a, ha, rfl⟩ := (hkeys n).1 (List.mem_map_of_mem (Dict.get_mem _ _ _ ht))
      obtain ⟨i, p, hi, hip, hpa⟩ := hfit a ha
      rw [← hpa] at ht ⊢
      rw [hconv i p hip]
      rw [table_get] at ht
      obtain ⟨v, hv, hmean⟩ := hgets i p hip
      rw [List.getElem?_eq_none hi] at hmean
      cases hmean with
      | named t' _ hg hc => rw [ht] at hg; cases hg; simp [hc]
      | default _ hg _ => rw [ht] at hg; cases hg)
    obtain ⟨hk1, hk2⟩ := parsedKwargs_spec _ _ _ hkw
    have hfill : fill m.params pos kw = some vals := by
      refine (fill_iff _ _ _ _).2 ⟨hgl, ?_⟩
      intro i p hip
      obtain ⟨v, hv, hmean⟩ := hgets i p hip
      refine ⟨v, hv, ?_⟩
      cases hpi : ps[i]? with
      | some a =>
        obtain ⟨w, hw, hc⟩ := hposi i a p.name hpi (by simp [hip])
        rw [hconv i p hip] at hc
        rw [hpi] at hmean
        cases hmean with
        | place _ _ hc' => rw [hc] at hc'; cases hc'; simp [hw]
      | none =>
        have : pos[i]? = none := by
          rw [List.getElem?_eq_none_iff] at hpi ⊢; omega
        rw [this]
        have hget := (hk2 p.name).1
        rw [table_get, hconv i p hip] at hget
        rw [hpi] at hmean
        cases hmean with
        | named t _ hg hc => simp [hget, hg, hc]
        | default _ hg hd => simp [hget, hg, hd]
    have hany : ¬ (kw.any (fun e => decide (e.1 ∉ (m.params.drop pos.length).map (·.name))) = true) := by
      rw [List.any_eq_true]
      rintro ⟨e, he, hne⟩
      have h1 : e.1 ∈ Dict.keys (table ns []) := by rw [← hk1]; exact List.mem_map_of_mem he
      obtain ⟨a, ha, hea⟩ := (hkeys _).1 h1
      rw [hlen] at hne
      have := (hdrop e.1).2 (by obtain ⟨i, p, h1, h2, h3⟩ := hfit a ha; exact ⟨i, p, h1, h2, by rw [h3, hea]⟩)
      simp only [decide_eq_true_eq] at hne
      exact hne this
    simp only [hpos, hkw, call, hfill, if_neg hany]
    rw [if_neg (by omega)]
    simp [hlen, hl]

/-- C117: an argument without a name after one with a name is refused, whatever stands before and after. -/
theorem task_order_refused (ofText : Text → V) (m : Method V) (before : List Text) (hb : ∀ e, parse before ≠ .error e) (a : Named)
    (ha : IsName a.name) (ns : List Named) (hn : ∀ a ∈ ns, IsName a.name) (t : Text) (ht : Plain t) (after : List Text) :
    run ofText m (before ++ a.text :: ns.map Named.text ++ t :: after) = .error .positional := by
  have happ : ∀ (ws vs : List Text) (x : List Text) (k : Dict Text Text), parseLoop (ws ++ vs) x k =
      match parseLoop ws x k with
      | .ok (x, k) => parseLoop vs x k
      | .error e => .error e := by
    intro ws
    induction ws with
    | nil => intro vs x k; rfl
    | cons w ws ih =>
      intro vs x k
      simp only [List.cons_append, parseLoop]
      rcases partitionEq (word w) with ⟨n, _ | v⟩
      · dsimp only
        split
        · rfl
        · exact ih _ _ _
      · exact ih _ _ _
  have hput : ∀ (k : Dict Text Text) (n v : Text), k.put n v ≠ [] := by
    intro k n v
    cases k with
    | nil => simp [Dict.put]
    | cons e k => simp only [Dict.put]; split <;> simp
  have htab : ∀ (ns : List Named) (k : Dict Text Text), k ≠ [] → table ns k ≠ [] := by
    intro ns
    induction ns with
    | nil => intro k hk; exact hk
    | cons a ns ih => intro k hk; exact ih _ (hput _ _ _)
  have : parse (before ++ a.text :: ns.map Named.text ++ t :: after) = .error .positional := by
    unfold parse at hb ⊢
    rw [List.append_assoc, happ]
    cases hr : parseLoop before [] [] with
    | error e => exact absurd hr (hb e)
    | ok r =>
      obtain ⟨x, k⟩ := r
      have hna := parseLoop_named (a :: ns) (fun b hb' => (List.mem_cons.1 hb').elim (fun e => e ▸ ha) (hn b)) x k
      rw [List.map_cons] at hna
      dsimp only
      rw [happ, hna]
      dsimp only
      simp only [parseLoop, word_plain t ht]
      rw [if_pos (show table (a :: ns) k ≠ [] from htab ns _ (hput _ _ _))]
  rw [run, this]

/-- C117 fails: arguments without a name for which there is no parameter get lost without a word, with `*args` too: the call is the
same as without them. -/
theorem task_surplus_violated (ofText : Text → V) (m : Method V) (ps more : List Text) (ns : List Named) (hp : ∀ t ∈ ps ++ more, Plain t)
    (hn : ∀ a ∈ ns, IsName a.name) (hl : ps.length = m.params.length) :
    run ofText m (ps ++ more ++ ns.map Named.text) = run ofText m (ps ++ ns.map Named.text) := by
  have : ∀ (f : Text → Text → Option V) (as bs xs : List Text), as.length = xs.length → parsedArgs f (as ++ bs) xs = parsedArgs f as xs := by
    intro f as
    induction as with
    | nil =>
      intro bs xs h
      have : xs = [] := by simpa using h.symm
      subst this
      cases bs <;> simp [parsedArgs]
    | cons a as ih =>
      intro bs xs h
      cases xs with
      | nil => simp at h
      | cons x xs => simp only [List.cons_append, parsedArgs, ih bs xs (by simpa using h)]
  simp only [run, parse_words (ps ++ more) ns hp hn, parse_words ps ns (fun t ht => hp t (by simp [ht])) hn, invoke]
  rw [this _ _ _ _ (by simpa using hl)]

namespace Example

/-- Values of Python. -/
inductive Val where
  | str (t : Text)
  | bool (b : Bool)
deriving DecidableEq

/-- `def run(target, fast: bool = False)`. -/
def task : Method Val :=
  { params := [⟨t!"target", fun t => some (.str t), none⟩, ⟨t!"fast", fun t => some (.bool (t != [])), some (.bool false)⟩] }

end Example
open Example

/-- The task with an argument and a flag. -/
example : run .str task [t!"all", t!"--fast"] = .ok ([.str t!"all", .bool true], []) := by rfl

/-- The same by the theorem. -/
example : Gets task [t!"all"] [.flag t!"fast"] [.str t!"all", .bool true] :=
  ((task_args_partial .str task (by decide) [t!"all"] [.flag t!"fast"] (by simp [Plain]) (by simp [IsName, Named.name]) (by decide)
    [.str t!"all", .bool true] []).1 rfl).2.1

/-- Named arguments before others are refused. -/
example : run .str task [t!"target=all", t!"yes"] = .error .positional :=
  task_order_refused .str task [] (by intro e h; cases h) (.pair t!"target" t!"all") (by simp [IsName, Named.name]) [] (by simp) t!"yes"
    (by simp [Plain]) []

/-- A third argument is lost, for a task with two parameters. -/
example : run .str task [t!"a", t!"b", t!"c"] = .ok ([.str t!"a", .bool true], []) := by rfl

/-- C117 fails: an argument with `=` in it, as a URL may have, is taken for a named one. -/
theorem task_equals_violated : run .str task [t!"http://a?b=c"] = .error .type := by rfl

/-- C117 fails: a parameter of type `bool` is true if `False` is given. -/
theorem task_false_violated : run .str task [t!"all", t!"--fast=False"] = .ok ([.str t!"all", .bool true], []) := by rfl

end TaskArgs
end Pkm
