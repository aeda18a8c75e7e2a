import Verif.Environments.Builder
import Verif.ParserLemmas
/-
Lemmas about the making of environments.
-/
set_option linter.unusedVariables false
set_option linter.unusedSimpArgs false
namespace Pkm.EnvBuild

/-- Everything that was there is there as before. -/
def Ext (f g : Disk) : Prop := ∀ p n, f.get p = some n → g.get p = some n

theorem Ext.refl (f : Disk) : Ext f f := fun _ _ h => h
theorem Ext.trans {f g h : Disk} (a : Ext f g) (b : Ext g h) : Ext f h := fun p n e => b p n (a p n e)

theorem ext_put (f : Disk) (p : Path) (n : Node) (h : f.get p = none) : Ext f (f.put p n) := by
  intro q m e
  rw [Dict.get_put]
  by_cases hq : p = q
  · subst hq; rw [h] at e; cases e
  · rw [if_neg hq]; exact e

theorem walkWith_ext (f g : Disk) (he : Ext f g) (nf ng : Path → Option Path) (hn : ∀ p q, nf p = some q → ng p = some q)
    (p : Path) : ∀ cur q, walkWith f nf cur p = some q → walkWith g ng cur p = some q := by
  induction p with
  | nil => intro cur q h; simpa [walkWith] using h
  | cons x xs ih =>
    intro cur q h
    simp only [walkWith] at h ⊢
    cases hg : f.get (cur ++ [x]) with
    | none => rw [hg] at h; cases h
    | some n =>
      rw [hg] at h
      rw [he _ _ hg]
      cases n with
      | file t => exact h
      | dir => exact ih _ _ h
      | link to => exact hn _ _ h

theorem walk_ext (f g : Disk) (he : Ext f g) (n : Nat) : ∀ p q, walk f n p = some q → walk g n p = some q := by
  induction n with
  | zero => intro p q h; exact walkWith_ext f g he _ _ (fun _ _ h => h) p [] q h
  | succ n ih => intro p q h; exact walkWith_ext f g he _ _ ih p [] q h

theorem mkdirs_ext (xs : Path) : ∀ (f : Disk) (pre : Path), Ext f (mkdirs f pre xs).1 := by
  induction xs with
  | nil => intro f pre; exact .refl f
  | cons x xs ih =>
    intro f pre
    simp only [mkdirs]
    cases h : f.get (pre ++ [x]) with
    | none => exact (ext_put _ _ _ h).trans (ih _ _)
    | some n => cases n <;> first | exact ih _ _ | exact .refl f

theorem place_ext (f : Disk) (p : Path) (n : Node) : Ext f (place f p n).1 := by
  unfold place
  split
  · rename_i h; exact ext_put _ _ _ h.1
  · exact .refl f

theorem step_ext (f : Disk) (s : Step) : Ext f (s.run f).1 := by
  cases s with
  | mkdir p => exact mkdirs_ext _ _ _
  | put p n => exact place_ext _ _ _
  | linkNew p to => simp only [Step.run]; split <;> first | exact .refl f | exact place_ext _ _ _
  | copyFound a b =>
    simp only [Step.run]
    split
    · split <;> first | exact .refl f | exact place_ext _ _ _
    · exact .refl f

theorem steps_ext (ss : List Step) : ∀ f, Ext f (runSteps f ss).1 := by
  induction ss with
  | nil => intro f; exact .refl f
  | cons s ss ih =>
    intro f
    simp only [runSteps]
    have h := step_ext f s
    cases hs : s.run f with
    | mk g b =>
      rw [hs] at h
      cases b
      · exact h
      · exact h.trans (ih g)

/-! ### Where something new is -/

/-- What differs is at or below `d`, or a directory made above it. -/
def New (d : Path) (f g : Disk) : Prop := ∀ p, g.get p ≠ f.get p → d <+: p ∨ (p <+: d ∧ g.get p = some .dir)

theorem New.refl (d : Path) (f : Disk) : New d f f := fun _ h => absurd rfl h

theorem New.trans {d : Path} {f g h : Disk} (a : New d f g) (b : New d g h) (e : Ext g h) : New d f h := by
  intro p hp
  by_cases h1 : h.get p = g.get p
  · rw [h1] at hp ⊢
    exact a p hp
  · exact b p h1

theorem mkdirs_new (xs : Path) : ∀ (f : Disk) (pre : Path), ∀ p, (mkdirs f pre xs).1.get p ≠ f.get p →
    p <+: pre ++ xs ∧ (mkdirs f pre xs).1.get p = some .dir := by
  induction xs with
  | nil => intro f pre p h; exact absurd rfl h
  | cons x xs ih =>
    intro f pre p
    simp only [mkdirs]
    cases hg : f.get (pre ++ [x]) with
    | none =>
      simp only
      intro hp
      by_cases h1 : (mkdirs (f.put (pre ++ [x]) .dir) (pre ++ [x]) xs).1.get p = (f.put (pre ++ [x]) .dir).get p
      · rw [h1, Dict.get_put] at hp ⊢
        by_cases h2 : pre ++ [x] = p
        · subst h2
          exact ⟨⟨xs, by simp⟩, by simp⟩
        · rw [if_neg h2] at hp; exact absurd rfl hp
      · have := ih _ _ p h1
        simpa using this
    | some n =>
      cases n with
      | dir => intro hp; simpa using ih f (pre ++ [x]) p hp
      | file t => intro hp; exact absurd rfl hp
      | link t => intro hp; exact absurd rfl hp

theorem place_new (d : Path) (f : Disk) (p : Path) (n : Node) (h : d <+: p) : New d f (place f p n).1 := by
  unfold place
  split
  · intro q hq
    rw [Dict.get_put] at hq
    by_cases h2 : p = q
    · subst h2; exact .inl h
    · rw [if_neg h2] at hq; exact absurd rfl hq
  · exact .refl d f

/-- The step is about something at or below `d`. -/
def Step.Inside (d : Path) : Step → Prop
  | .mkdir p => d <+: p
  | .put p _ => d <+: p
  | .linkNew p _ => d <+: p
  | .copyFound _ p => d <+: p

theorem step_new (d : Path) (f : Disk) (s : Step) (h : s.Inside d) : New d f (s.run f).1 := by
  cases s with
  | mkdir p =>
    intro q hq
    have := mkdirs_new p f [] q hq
    rcases List.prefix_or_prefix_of_prefix this.1 h with k | k
    · exact .inr ⟨k, this.2⟩
    · exact .inl k
  | put p n => exact place_new _ _ _ _ h
  | linkNew p to => simp only [Step.run]; split <;> first | exact .refl d f | exact place_new _ _ _ _ h
  | copyFound a b =>
    simp only [Step.run]
    split
    · split <;> first | exact .refl d f | exact place_new _ _ _ _ h
    · exact .refl d f

theorem steps_new (d : Path) (ss : List Step) (h : ∀ s ∈ ss, s.Inside d) : ∀ f, New d f (runSteps f ss).1 := by
  induction ss with
  | nil => intro f; exact .refl d f
  | cons s ss ih =>
    intro f
    simp only [runSteps]
    have h1 := step_new d f s (h s (by simp))
    cases hs : s.run f with
    | mk g b =>
      rw [hs] at h1
      cases b
      · exact h1
      · exact h1.trans (ih (fun s hs => h s (by simp [hs])) g) (steps_ext ss g)

theorem steps_inside (d : Path) (i : Interp) : ∀ s ∈ steps d i, s.Inside d := by
  intro s hs
  simp only [steps, List.mem_append, List.mem_cons, List.not_mem_nil, or_false, List.mem_map] at hs
  rcases hs with (((rfl | rfl) | ⟨x, _, rfl⟩) | hs) | hs
  · exact List.prefix_refl d
  · exact List.prefix_append _ _
  · exact List.prefix_append _ _
  · split at hs
    · simp at hs; subst hs; exact List.prefix_append _ _
    · cases hs
  · split at hs
    · obtain ⟨n, _, rfl⟩ := List.mem_map.mp hs; exact List.prefix_append _ _
    · obtain ⟨n, _, rfl⟩ := List.mem_map.mp hs; exact List.prefix_append _ _

/-! ### What is below the path -/

/-- `G` is what there is below `d`; `d` and what is above it are directories. -/
structure In (g : Disk) (d : Path) (G : Path → Option Node) : Prop where
  base : ∀ q, q ≠ [] → q <+: d → g.get q = some .dir
  rel : ∀ r, g.get (d ++ r) = G r

theorem mkdirs_get (xs : Path) : ∀ (f : Disk) (pre : Path),
    (∀ q, q ≠ [] → q <+: xs → f.get (pre ++ q) = none ∨ f.get (pre ++ q) = some .dir) →
    (mkdirs f pre xs).2 = true ∧ ∀ q, q ≠ [] → q <+: xs → (mkdirs f pre xs).1.get (pre ++ q) = some .dir := by
  induction xs with
  | nil => intro f pre h; exact ⟨rfl, fun q hq hp => absurd (List.prefix_nil.mp hp) hq⟩
  | cons x xs ih =>
    intro f pre h
    have key : ∀ g : Disk, Ext g (mkdirs g (pre ++ [x]) xs).1 → g.get (pre ++ [x]) = some .dir →
        (∀ q, q ≠ [] → q <+: xs → g.get (pre ++ [x] ++ q) = none ∨ g.get (pre ++ [x] ++ q) = some .dir) →
        (mkdirs g (pre ++ [x]) xs).2 = true ∧
          ∀ q, q ≠ [] → q <+: x :: xs → (mkdirs g (pre ++ [x]) xs).1.get (pre ++ q) = some .dir := by
      intro g he hx hq
      have i := ih g (pre ++ [x]) hq
      refine ⟨i.1, ?_⟩
      intro q hq hp
      cases q with
      | nil => exact absurd rfl hq
      | cons y q =>
        obtain ⟨rfl, hp'⟩ := List.cons_prefix_cons.mp hp
        by_cases hq : q = []
        · subst hq; exact he _ _ hx
        · have := i.2 q hq hp'
          simpa using this
    simp only [mkdirs]
    cases hg : f.get (pre ++ [x]) with
    | none =>
      refine key _ (mkdirs_ext _ _ _) (by simp [Dict.get_put]) ?_
      intro q hq hp
      rw [Dict.get_put, if_neg (by simpa using hq)]
      have := h (x :: q) (by simp) (by simpa using hp)
      simpa using this
    | some n =>
      have := h [x] (by simp) (by simp)
      rw [hg] at this
      simp at this
      subst this
      refine key _ (mkdirs_ext _ _ _) hg ?_
      intro q hq hp
      have := h (x :: q) (by simp) (by simpa using hp)
      simpa using this

theorem prefix_append_cases (q d x : Path) (h : q <+: d ++ x) : q <+: d ∨ ∃ r, r ≠ [] ∧ r <+: x ∧ q = d ++ r := by
  rcases List.prefix_or_prefix_of_prefix h (List.prefix_append d x) with k | ⟨r, k⟩
  · exact .inl k
  · by_cases hr : r = []
    · subst hr; simp at k; subst k; exact .inl (List.prefix_refl d)
    · refine .inr ⟨r, hr, ?_, k.symm⟩
      subst k
      exact (List.prefix_append_right_inj d).mp h

theorem in_mkdir (g : Disk) (d : Path) (G : Path → Option Node) (x : Path) (h : In g d G) (hd : d ≠ [])
    (hx : ∀ r, r ≠ [] → r <+: x → G r = none ∨ G r = some .dir) :
    ∃ g', Step.run g (.mkdir (d ++ x)) = (g', true) ∧ In g' d (fun r => if r <+: x then some .dir else G r) := by
  have hp : ∀ q, q ≠ [] → q <+: d ++ x → g.get ([] ++ q) = none ∨ g.get ([] ++ q) = some .dir := by
    intro q hq hp
    rcases prefix_append_cases q d x hp with k | ⟨r, hr, k, rfl⟩
    · exact .inr (h.base q hq k)
    · rw [List.nil_append, h.rel]; exact hx r hr k
  have m := mkdirs_get (d ++ x) g [] hp
  refine ⟨(mkdirs g [] (d ++ x)).1, ?_, ?_, ?_⟩
  · simp only [Step.run]; rw [← m.1]
  · intro q hq hp; exact m.2 q hq (hp.trans (List.prefix_append d x))
  · intro r
    by_cases hr : r <+: x
    · simp only [if_pos hr]
      exact m.2 (d ++ r) (by simp [hd]) ((List.prefix_append_right_inj d).mpr hr)
    · simp only [if_neg hr]
      rw [← h.rel]
      apply Decidable.byContradiction
      intro hn
      have := (mkdirs_new (d ++ x) g [] (d ++ r) hn).1
      exact hr ((List.prefix_append_right_inj d).mp this)

theorem in_place (g : Disk) (d : Path) (G : Path → Option Node) (r : Path) (n : Node) (h : In g d G)
    (hr : r ≠ []) (hn : G r = none) (hp : G r.dropLast = some .dir) :
    ∃ g', place g (d ++ r) n = (g', true) ∧ In g' d (fun s => if r = s then some n else G s) := by
  have e : (d ++ r).dropLast = d ++ r.dropLast := List.dropLast_append_of_ne_nil hr
  refine ⟨g.put (d ++ r) n, ?_, ?_, ?_⟩
  · simp only [place]
    rw [if_pos ⟨by rw [h.rel]; exact hn, by rw [e, h.rel]; exact hp⟩]
  · intro q hq hpq
    rw [Dict.get_put, if_neg]
    · exact h.base q hq hpq
    · rintro rfl
      have := hpq.length_le
      rw [List.length_append] at this
      exact hr (List.length_eq_zero_iff.mp (by omega))
  · intro s
    rw [Dict.get_put]
    simp only [List.append_cancel_left_eq]
    rw [h.rel]

/-- Along directories. -/
theorem walkWith_dirs (f : Disk) (next : Path → Option Path) (rest : Path) (p : Path) : ∀ cur,
    (∀ q, q ≠ [] → q <+: p → f.get (cur ++ q) = some .dir) →
    walkWith f next cur (p ++ rest) = walkWith f next (cur ++ p) rest := by
  induction p with
  | nil => intro cur h; simp
  | cons x xs ih =>
    intro cur h
    have hx := h [x] (by simp) (by simp)
    simp only [List.cons_append, walkWith, hx]
    rw [ih (cur ++ [x])]
    · simp
    · intro q hq hp
      have := h (x :: q) (by simp) (by simpa using hp)
      simpa using this

theorem walk_dirs (f : Disk) (n : Nat) (p rest : Path) (h : ∀ q, q ≠ [] → q <+: p → f.get q = some .dir) :
    ∃ next, (n = 0 → next = fun _ => none) ∧ (∀ m, n = m + 1 → next = walk f m) ∧
      walk f n (p ++ rest) = walkWith f next p rest := by
  cases n with
  | zero =>
    refine ⟨fun _ => none, fun _ => rfl, fun m e => by omega, ?_⟩
    simpa [walk] using walkWith_dirs f (fun _ => none) rest p [] (by simpa using h)
  | succ n =>
    refine ⟨walk f n, fun e => by omega, fun m e => ?_, ?_⟩
    · have : n = m := by omega
      rw [this]
    · simpa [walk] using walkWith_dirs f (walk f n) rest p [] (by simpa using h)

theorem not_present (f : Disk) (p : Path) (x : Text) (h : ∀ q, q ≠ [] → q <+: p → f.get q = some .dir)
    (hx : f.get (p ++ [x]) = none) : present f (p ++ [x]) = false := by
  obtain ⟨next, _, _, e⟩ := walk_dirs f 40 p [x] h
  simp only [present, e, walkWith, hx]
  rfl

theorem in_dirs (g : Disk) (d : Path) (G : Path → Option Node) (x : Path) (h : In g d G)
    (hx : ∀ r, r ≠ [] → r <+: x → G r = some .dir) : ∀ q, q ≠ [] → q <+: d ++ x → g.get q = some .dir := by
  intro q hq hp
  rcases prefix_append_cases q d x hp with k | ⟨r, hr, k, rfl⟩
  · exact h.base q hq k
  · rw [h.rel]; exact hx r hr k

theorem in_linkNew (g : Disk) (d : Path) (G : Path → Option Node) (x y : Text) (to : Path) (h : In g d G)
    (hn : G [x, y] = none) (hp : G [x] = some .dir) :
    ∃ g', Step.run g (.linkNew (d ++ [x, y]) to) = (g', true) ∧
      In g' d (fun s => if [x, y] = s then some (.link to) else G s) := by
  have hb : ∀ q, q ≠ [] → q <+: d ++ [x] → g.get q = some .dir := by
    refine in_dirs g d G [x] h ?_
    intro r hr hp'
    cases r with
    | nil => exact absurd rfl hr
    | cons a r =>
      obtain ⟨rfl, k⟩ := List.cons_prefix_cons.mp hp'
      obtain rfl := List.prefix_nil.mp k
      exact hp
  have np := not_present g (d ++ [x]) y hb (by rw [List.append_assoc]; rw [show [x] ++ [y] = [x, y] from rfl, h.rel]; exact hn)
  obtain ⟨g', e, hg⟩ := in_place g d G [x, y] (.link to) h (by simp) hn (by simpa using hp)
  refine ⟨g', ?_, hg⟩
  simp only [Step.run]
  rw [show d ++ [x, y] = d ++ [x] ++ [y] by simp, np]
  simpa using e

theorem showNat_ne_nil (n : Nat) : showNat n ≠ [] := by
  unfold showNat showNatF
  split <;> simp

end Pkm.EnvBuild
