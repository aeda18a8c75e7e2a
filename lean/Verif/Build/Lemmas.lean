import Verif.Build.Spec
set_option linter.unusedVariables false
set_option linter.unusedSimpArgs false
set_option linter.unusedSectionVars false
/-
Invariants of recursive builds.
-/
namespace Pkm.Build
variable {P : Type} [DecidableEq P]

theorem open_append (a b : List (Ev P)) : ∀ o, openBuilds (a ++ b) o = openBuilds b (openBuilds a o) := by
  induction a with
  | nil => intro o; rfl
  | cons e es ih => intro o; cases e <;> simp [openBuilds, ih]

theorem never_snoc (l : List (Ev P)) (e : Ev P) :
    NeverNested (l ++ [e]) ↔ NeverNested l ∧ (openBuilds (l ++ [e]) []).Nodup := by
  constructor
  · intro h
    refine ⟨fun n => ?_, ?_⟩
    · by_cases hn : n ≤ l.length
      · have := h n; rwa [List.take_append_of_le_length hn] at this
      · have := h l.length
        rw [List.take_append_of_le_length (Nat.le_refl _)] at this
        rw [List.take_of_length_le (by omega)]
        simpa using this
    · have := h (l ++ [e]).length; rwa [List.take_length] at this
  · rintro ⟨h1, h2⟩ n
    by_cases hn : n ≤ l.length
    · rw [List.take_append_of_le_length hn]; exact h1 n
    · rw [List.take_of_length_le (by simp; omega)]; exact h2

theorem never_now (l : List (Ev P)) (h : NeverNested l) : (openBuilds l []).Nodup := by
  have := h l.length; simpa using this

@[simp] theorem clear_path (p : P) (s : St P) : (clear p s).path = s.path := rfl
@[simp] theorem clear_log (p : P) (s : St P) : (clear p s).log = s.log := rfl
@[simp] theorem store_path (p : P) (k : Kind) (s : St P) : (store p k s).path = s.path := by cases k <;> rfl
@[simp] theorem store_log (p : P) (k : Kind) (s : St P) : (store p k s).log = s.log := by cases k <;> rfl
@[simp] theorem event_path (e : Ev P) (s : St P) : (s.event e).path = s.path := rfl
@[simp] theorem event_log (e : Ev P) (s : St P) : (s.event e).log = s.log ++ [e] := rfl

/-! ### nesting -/

/-- Before a build: the builds going on are all in the dictionary. -/
structure Inv (s : St P) : Prop where
  never : NeverNested s.log
  path : ∀ p, p ∈ openBuilds s.log [] → p ∈ s.path

/-- After it. -/
structure Post (s s' : St P) : Prop where
  never : NeverNested s'.log
  same : openBuilds s'.log [] = openBuilds s.log []
  path : ∀ p, p ∈ s.path → p ∈ s'.path

theorem Post.inv {s s' : St P} (h : Inv s) (h' : Post s s') : Inv s' :=
  ⟨h'.never, fun p hp => h'.path p (h.path p (by rwa [h'.same] at hp))⟩

theorem Post.refl {s : St P} (h : Inv s) : Post s s := ⟨h.never, rfl, fun _ h => h⟩

theorem Post.trans {a b c : St P} (h : Post a b) (h' : Post b c) : Post a c :=
  ⟨h'.never, h'.same.trans h.same, fun p hp => h'.path p (h.path p hp)⟩

theorem post_of_eq {s a b : St P} (h : Post s a) (h1 : b.log = a.log) (h2 : b.path = a.path) : Post s b :=
  ⟨by rw [h1]; exact h.never, by rw [h1]; exact h.same, by rw [h2]; exact h.path⟩

theorem runAll_post (ask : Req P → St P → Option (BErr P) × St P) (rs : List (Req P))
    (h : ∀ r, r ∈ rs → ∀ s, Inv s → Post s (ask r s).2) :
    ∀ s, Inv s → Post s (runAll ask rs s).2 := by
  induction rs with
  | nil => intro s hs; exact .refl hs
  | cons r rs ih =>
    intro s hs
    have h1 := h r (by simp) s hs
    simp only [runAll]
    split
    · rename_i e s' he
      rw [he] at h1; exact h1
    · rename_i s' he
      rw [he] at h1
      exact h1.trans (ih (fun r hr => h r (by simp [hr])) s' (h1.inv hs))

theorem attempt_post (b : P → Kind → St P → Option (BErr P) × St P)
    (hb : ∀ p k s, Inv s → Post s (b p k s).2) (r : Req P) (hr : r.fresh = false) (s : St P)
    (hs : Inv s) : Post s (attempt b r s).2 := by
  have h1 := hb r.pkg r.kind s hs
  simp only [attempt, withPath, hr, Bool.false_eq_true, if_false]
  cases hx : b r.pkg r.kind s with
  | mk o s' =>
    rw [hx] at h1
    cases o with
    | none => exact post_of_eq h1 (by simp) (by simp)
    | some e =>
      simp only
      split
      · have h2 := hb r.pkg .wheel s' (h1.inv hs)
        cases hy : b r.pkg .wheel s' with
        | mk o' s'' =>
          rw [hy] at h2
          cases o' with
          | none => exact post_of_eq (h1.trans h2) (by simp) (by simp)
          | some e' => exact h1.trans h2
      · exact h1

theorem askWith_post (b : P → Kind → St P → Option (BErr P) × St P)
    (hb : ∀ p k s, Inv s → Post s (b p k s).2) (r : Req P) (hr : r.fresh = false) (s : St P)
    (hs : Inv s) : Post s (askWith b r s).2 := by
  simp only [askWith]
  split
  · exact .refl hs
  · have hi : Inv (clear r.pkg s) := ⟨hs.never, hs.path⟩
    have := attempt_post b hb r hr (clear r.pkg s) hi
    exact ⟨this.never, this.same, this.path⟩

theorem build_post (cfg : Cfg P) (hl : Local cfg) (f : Nat) :
    ∀ p k s, Inv s → Post s (build cfg f p k s).2 := by
  induction f with
  | zero => intro p k s hs; exact .refl hs
  | succ f ih =>
    intro p k s hs
    simp only [build]
    split
    · exact .refl hs
    · rename_i hp
      have hopen : p ∉ openBuilds s.log [] := fun h => hp (hs.path p h)
      have hcat : openBuilds (s.log ++ [.start p]) [] = p :: openBuilds s.log [] := by
        rw [open_append]; rfl
      have hi : Inv { s with path := s.path ++ [p], log := s.log ++ [.start p] } := by
        constructor
        · rw [never_snoc]
          refine ⟨hs.never, ?_⟩
          rw [hcat]
          exact List.nodup_cons.2 ⟨hopen, never_now _ hs.never⟩
        · intro q hq
          simp only [hcat] at hq
          simp at hq ⊢
          rcases hq with rfl | hq
          · exact Or.inr rfl
          · exact Or.inl (hs.path q hq)
      have h2 := runAll_post (askWith (build cfg f)) (cfg.reqs p)
        (fun r hr s hs => askWith_post _ ih r (hl p r hr) s hs) _ hi
      have close : ∀ (s' : St P) (e : Ev P), (e = .done p ∨ e = .failed p) →
          Post { s with path := s.path ++ [p], log := s.log ++ [.start p] } s' → Post s (s'.event e) := by
        intro s' e he h2
        have hsame : openBuilds (s'.log ++ [e]) [] = openBuilds s.log [] := by
          rw [open_append, h2.same]
          simp only [hcat]
          rcases he with rfl | rfl <;> simp [openBuilds]
        refine ⟨?_, hsame, fun q hq => h2.path q (by simp [hq])⟩
        rw [event_log, never_snoc]
        refine ⟨h2.never, ?_⟩
        rw [hsame]
        exact never_now _ hs.never
      split
      · rename_i e s' he
        rw [he] at h2
        exact close s' _ (Or.inr rfl) h2
      · rename_i s' he
        rw [he] at h2
        simp only [finish]
        split
        · exact close s' _ (Or.inr rfl) h2
        · split
          · exact close s' _ (Or.inl rfl) h2
          · exact close s' _ (Or.inr rfl) h2

/-! ### fuel -/

/-- How many packages of `U` are not in the dictionary. -/
def left (U path : List P) : Nat := (U.filter (fun p => decide (p ∉ path))).length

theorem left_mono (U a b : List P) (h : ∀ p, p ∈ a → p ∈ b) : left U b ≤ left U a := by
  induction U with
  | nil => simp [left]
  | cons x xs ih =>
    simp only [left, List.filter_cons] at ih ⊢
    by_cases h1 : x ∈ b
    · simp only [h1, not_true_eq_false, decide_false]
      by_cases h2 : x ∈ a <;> simp [h2] <;> simp at ih <;> omega
    · have h2 : x ∉ a := fun h2 => h1 (h x h2)
      simp [h1, h2] at ih ⊢
      omega

theorem left_snoc (U a : List P) (p : P) (hp : p ∉ a) (hU : p ∈ U) : left U (a ++ [p]) < left U a := by
  induction U with
  | nil => simp at hU
  | cons x xs ih =>
    by_cases hx : x = p
    · subst hx
      have := left_mono xs a (a ++ [x]) (by intro q hq; simp [hq])
      simp only [left, List.filter_cons] at this ⊢
      simp [hp] at this ⊢
      omega
    · have := ih (by simp at hU; rcases hU with h | h; exact absurd h.symm hx; exact h)
      simp only [left, List.filter_cons] at this ⊢
      by_cases h2 : x ∈ a <;> simp [h2, hx] at this ⊢ <;> omega

theorem build_path (cfg : Cfg P) (hl : Local cfg) (f : Nat) :
    ∀ p k s q, q ∈ s.path → q ∈ (build cfg f p k s).2.path := by
  have hatt : ∀ (b : P → Kind → St P → Option (BErr P) × St P),
      (∀ p k s q, q ∈ s.path → q ∈ (b p k s).2.path) → ∀ (r : Req P), r.fresh = false → ∀ s q,
      q ∈ s.path → q ∈ (askWith b r s).2.path := by
    intro b hb r hr s q hq
    simp only [askWith]
    split
    · exact hq
    · simp only [attempt, withPath, hr, Bool.false_eq_true, if_false]
      have h1 := hb r.pkg r.kind (clear r.pkg s) q hq
      cases hx : b r.pkg r.kind (clear r.pkg s) with
      | mk o s' =>
        rw [hx] at h1
        cases o with
        | none => simpa using h1
        | some e =>
          simp only
          split
          · have h2 := hb r.pkg .wheel s' q h1
            cases hy : b r.pkg .wheel s' with
            | mk o' s'' =>
              rw [hy] at h2
              cases o' with
              | none => simpa using h2
              | some e' => exact h2
          · exact h1
  have hall : ∀ (a : Req P → St P → Option (BErr P) × St P) (rs : List (Req P)),
      (∀ r, r ∈ rs → ∀ s q, q ∈ s.path → q ∈ (a r s).2.path) → ∀ s q, q ∈ s.path →
      q ∈ (runAll a rs s).2.path := by
    intro a rs
    induction rs with
    | nil => intro _ s q hq; exact hq
    | cons r rs ih =>
      intro ha s q hq
      have h1 := ha r (by simp) s q hq
      simp only [runAll]
      split
      · rename_i e s' he; rw [he] at h1; exact h1
      · rename_i s' he; rw [he] at h1; exact ih (fun r hr => ha r (by simp [hr])) s' q h1
  induction f with
  | zero => intro p k s q hq; exact hq
  | succ f ih =>
    intro p k s q hq
    simp only [build]
    split
    · exact hq
    · have h2 := hall (askWith (build cfg f)) (cfg.reqs p)
        (fun r hr => hatt _ ih r (hl p r hr)) { s with path := s.path ++ [p], log := s.log ++ [.start p] } q
        (by simp [hq])
      split
      · rename_i e s' he; rw [he] at h2; exact h2
      · rename_i s' he
        rw [he] at h2
        simp only [finish]
        split
        · exact h2
        · split <;> exact h2

theorem askWith_path (cfg : Cfg P) (hl : Local cfg) (f : Nat) (r : Req P) (hr : r.fresh = false) (s : St P)
    (q : P) (hq : q ∈ s.path) : q ∈ (askWith (build cfg f) r s).2.path := by
  have hb := build_path cfg hl f
  simp only [askWith]
  split
  · exact hq
  · simp only [attempt, withPath, hr, Bool.false_eq_true, if_false]
    have h1 := hb r.pkg r.kind (clear r.pkg s) q hq
    cases hx : build cfg f r.pkg r.kind (clear r.pkg s) with
    | mk o s' =>
      rw [hx] at h1
      cases o with
      | none => simpa using h1
      | some e =>
        simp only
        split
        · have h2 := hb r.pkg .wheel s' q h1
          cases hy : build cfg f r.pkg .wheel s' with
          | mk o' s'' =>
            rw [hy] at h2
            cases o' with
            | none => simpa using h2
            | some e' => exact h2
        · exact h1

/-- Enough fuel: the builds end. -/
theorem build_fuel (cfg : Cfg P) (hl : Local cfg) (U : List P)
    (hU : ∀ p, p ∈ U → ∀ r, r ∈ cfg.reqs p → r.pkg ∈ U) (f : Nat) :
    ∀ p k s, p ∈ U → left U s.path < f → (build cfg f p k s).1 ≠ some .fuel := by
  induction f with
  | zero => intro p k s _ h; omega
  | succ f ih =>
    intro p k s hp hf
    simp only [build]
    split
    · simp
    · rename_i hn
      have hlt := left_snoc U s.path p hn hp
      have key : ∀ (rs : List (Req P)) (s : St P), (∀ r, r ∈ rs → r.pkg ∈ U ∧ r.fresh = false) →
          left U s.path < f → (runAll (askWith (build cfg f)) rs s).1 ≠ some .fuel := by
        intro rs
        induction rs with
        | nil => intro s _ _; simp [runAll]
        | cons r rs ih2 =>
          intro s hrs hf
          have hr := hrs r (by simp)
          have h1 : (askWith (build cfg f) r s).1 ≠ some .fuel := by
            simp only [askWith]
            split
            · simp
            · simp only [attempt, withPath, hr.2, Bool.false_eq_true, if_false]
              have g1 := ih r.pkg r.kind (clear r.pkg s) hr.1 hf
              have g2 := build_path cfg hl f r.pkg r.kind (clear r.pkg s)
              cases hx : build cfg f r.pkg r.kind (clear r.pkg s) with
              | mk o s' =>
                rw [hx] at g1 g2
                cases o with
                | none => simp
                | some e =>
                  simp only
                  split
                  · have g3 := ih r.pkg .wheel s' hr.1
                      (Nat.lt_of_le_of_lt (left_mono U _ _ g2) hf)
                    cases hy : build cfg f r.pkg .wheel s' with
                    | mk o' s'' =>
                      rw [hy] at g3
                      cases o' with
                      | none => simp
                      | some e' => simpa using g3
                  · simpa using g1
          simp only [runAll]
          split
          · rename_i e s' he; rw [he] at h1; simpa using h1
          · rename_i s' he
            have h2 := askWith_path cfg hl f r hr.2 s
            rw [he] at h2
            exact ih2 s' (fun r hr => hrs r (by simp [hr])) (Nat.lt_of_le_of_lt (left_mono U _ _ h2) hf)
      have h2 := key (cfg.reqs p) { s with path := s.path ++ [p], log := s.log ++ [.start p] }
        (fun r hr => ⟨hU p hp r hr, hl p r hr⟩) (by simp only; omega)
      split
      · rename_i e s' he; rw [he] at h2; simpa using h2
      · simp only [finish]
        split
        · simp
        · split <;> simp

/-! ### order of completion -/

/-- Every completed build is preceded by the completion of all that it asked for. -/
def Ordered (cfg : Cfg P) (log : List (Ev P)) : Prop :=
  ∀ a b x, log = a ++ .done x :: b → ∀ r, r ∈ cfg.reqs x → Ev.done r.pkg ∈ a

theorem ordered_snoc (cfg : Cfg P) (l : List (Ev P)) (e : Ev P) (h : Ordered cfg l)
    (he : ∀ x, e = .done x → ∀ r, r ∈ cfg.reqs x → Ev.done r.pkg ∈ l) : Ordered cfg (l ++ [e]) := by
  intro a b x hl r hr
  cases hb : b.reverse with
  | nil =>
    have : b = [] := by simpa using hb
    subst this
    have h2 := List.append_inj' hl (by simp)
    simp at h2
    obtain ⟨rfl, rfl⟩ := h2
    exact he x rfl r hr
  | cons y ys =>
    have hb' : b = ys.reverse ++ [y] := by
      have := congrArg List.reverse hb; simpa using this
    subst hb'
    have h2 : l ++ [e] = (a ++ .done x :: ys.reverse) ++ [y] := by rw [hl]; simp
    have h3 := List.append_inj' h2 (by simp)
    exact h a _ x h3.1 r hr

structure OInv (cfg : Cfg P) (s : St P) : Prop where
  ordered : Ordered cfg s.log
  cache : ∀ p, s.hasMeta p = true → Ev.done p ∈ s.log

structure OPost (cfg : Cfg P) (s s' : St P) : Prop where
  inv : OInv cfg s'
  grows : ∀ e, e ∈ s.log → e ∈ s'.log

theorem askWith_order (cfg : Cfg P) (b : P → Kind → St P → Option (BErr P) × St P)
    (hb : ∀ p k s, OInv cfg s → OPost cfg s (b p k s).2 ∧
      ((b p k s).1 = none → Ev.done p ∈ (b p k s).2.log)) (r : Req P) (s : St P) (hs : OInv cfg s) :
    OPost cfg s (askWith b r s).2 ∧ ((askWith b r s).1 = none → Ev.done r.pkg ∈ (askWith b r s).2.log) := by
  have hw : ∀ k s, OInv cfg s → OPost cfg s (withPath r.fresh (b r.pkg k) s).2 ∧
      ((withPath r.fresh (b r.pkg k) s).1 = none → Ev.done r.pkg ∈ (withPath r.fresh (b r.pkg k) s).2.log) := by
    intro k s hs
    simp only [withPath]
    split
    · have := hb r.pkg k { s with path := [] } ⟨hs.ordered, hs.cache⟩
      exact ⟨⟨⟨this.1.inv.ordered, this.1.inv.cache⟩, this.1.grows⟩, this.2⟩
    · exact hb r.pkg k s hs
  have hst : ∀ k s, OInv cfg s → Ev.done r.pkg ∈ s.log → OInv cfg (store r.pkg k s) := by
    intro k s hs hd
    refine ⟨by simpa using hs.ordered, ?_⟩
    intro p hp
    rw [store_log]
    by_cases h : p = r.pkg
    · subst h; exact hd
    · cases k <;> simp [store, h] at hp <;> exact hs.cache p hp
  simp only [askWith]
  split
  · rename_i hc
    simp only [cached, Bool.and_eq_true] at hc
    exact ⟨⟨hs, fun _ h => h⟩, fun _ => hs.cache _ hc.1⟩
  · have hi : OInv cfg (clear r.pkg s) := by
      refine ⟨hs.ordered, fun p hp => ?_⟩
      simp only [clear] at hp
      split at hp
      · simp at hp
      · exact hs.cache p hp
    have h1 := hw r.kind (clear r.pkg s) hi
    simp only [attempt]
    cases hx : withPath r.fresh (b r.pkg r.kind) (clear r.pkg s) with
    | mk o s' =>
      rw [hx] at h1
      cases o with
      | none =>
        have hd := h1.2 rfl
        exact ⟨⟨hst _ _ h1.1.inv hd, fun e he => by rw [store_log]; exact h1.1.grows e he⟩,
          fun _ => by rw [store_log]; exact hd⟩
      | some e =>
        simp only
        split
        · have h2 := hw .wheel s' h1.1.inv
          cases hy : withPath r.fresh (b r.pkg .wheel) s' with
          | mk o' s'' =>
            rw [hy] at h2
            cases o' with
            | none =>
              have hd := h2.2 rfl
              exact ⟨⟨hst .wheel s'' h2.1.inv hd, fun e he => by
                rw [store_log]; exact h2.1.grows e (h1.1.grows e he)⟩, fun _ => by rw [store_log]; exact hd⟩
            | some e' => exact ⟨⟨h2.1.inv, fun e he => h2.1.grows e (h1.1.grows e he)⟩, by simp⟩
        · exact ⟨⟨h1.1.inv, h1.1.grows⟩, by simp⟩

theorem runAll_order (cfg : Cfg P) (a : Req P → St P → Option (BErr P) × St P)
    (ha : ∀ r s, OInv cfg s → OPost cfg s (a r s).2 ∧ ((a r s).1 = none → Ev.done r.pkg ∈ (a r s).2.log))
    (rs : List (Req P)) : ∀ s, OInv cfg s → OPost cfg s (runAll a rs s).2 ∧
      ((runAll a rs s).1 = none → ∀ r, r ∈ rs → Ev.done r.pkg ∈ (runAll a rs s).2.log) := by
  induction rs with
  | nil => intro s hs; exact ⟨⟨hs, fun _ h => h⟩, by simp⟩
  | cons r rs ih =>
    intro s hs
    have h1 := ha r s hs
    simp only [runAll]
    split
    · rename_i e s' he; rw [he] at h1; exact ⟨h1.1, by simp⟩
    · rename_i s' he
      rw [he] at h1
      have h2 := ih s' h1.1.inv
      refine ⟨⟨h2.1.inv, fun e he => h2.1.grows e (h1.1.grows e he)⟩, ?_⟩
      intro hn x hx
      simp at hx
      rcases hx with rfl | hx
      · exact h2.1.grows _ (h1.2 rfl)
      · exact h2.2 hn x hx

theorem build_order_inv (cfg : Cfg P) (f : Nat) : ∀ p k s, OInv cfg s → OPost cfg s (build cfg f p k s).2 ∧
    ((build cfg f p k s).1 = none → Ev.done p ∈ (build cfg f p k s).2.log) := by
  induction f with
  | zero => intro p k s hs; exact ⟨⟨hs, fun _ h => h⟩, by simp [build]⟩
  | succ f ih =>
    intro p k s hs
    simp only [build]
    split
    · exact ⟨⟨hs, fun _ h => h⟩, by simp⟩
    · have hi : OInv cfg { s with path := s.path ++ [p], log := s.log ++ [.start p] } :=
        ⟨ordered_snoc _ _ _ hs.ordered (by simp), fun q hq => by simpa using hs.cache q hq⟩
      have h2 := runAll_order cfg _ (fun r s hs => askWith_order cfg _ ih r s hs) (cfg.reqs p) _ hi
      have hfail : ∀ s', OPost cfg { s with path := s.path ++ [p], log := s.log ++ [.start p] } s' →
          OPost cfg s (s'.event (.failed p)) := by
        intro s' h
        refine ⟨⟨ordered_snoc _ _ _ h.inv.ordered (by simp), fun q hq => ?_⟩, fun e he => ?_⟩
        · simp; exact h.inv.cache q hq
        · simp; left; exact h.grows e (by simp [he])
      split
      · rename_i e s' he
        rw [he] at h2
        exact ⟨hfail s' h2.1, by simp⟩
      · rename_i s' he
        rw [he] at h2
        simp only [finish]
        split
        · exact ⟨hfail s' h2.1, by simp⟩
        · split
          · refine ⟨⟨⟨ordered_snoc _ _ _ h2.1.inv.ordered ?_, fun q hq => ?_⟩, fun e he => ?_⟩, by simp⟩
            · intro x hx r hr
              simp at hx
              subst hx
              exact h2.2 rfl r hr
            · simp; left; exact h2.1.inv.cache q hq
            · simp; left; exact h2.1.grows e (by simp [he])
          · exact ⟨hfail s' h2.1, by simp⟩

/-- What a completed build needs was completed before. -/
theorem ordered_needs (cfg : Cfg P) (log : List (Ev P)) (h : Ordered cfg log) (a b : List (Ev P)) (x : P)
    (hl : log = a ++ .done x :: b) : ∀ y, Needs cfg x y → Ev.done y ∈ a := by
  intro y hy
  induction hy with
  | direct r hr => exact h a b x hl r hr
  | step q r _ hr ih =>
    obtain ⟨a1, a2, e⟩ := List.append_of_mem ih
    rw [e]
    have := h a1 (a2 ++ .done x :: b) q (by rw [hl, e]; simp) r hr
    simp [this]

/-! ### reported cycles -/

theorem needs_trans (cfg : Cfg P) (p q r : P) (h1 : Needs cfg p q) (h2 : Needs cfg q r) : Needs cfg p r := by
  induction h2 with
  | direct r hr => exact .step _ _ r h1 hr
  | step x r _ hr ih => exact .step _ _ r ih hr

/-- `q` is `p` or needed for it. -/
def Below (cfg : Cfg P) (p q : P) : Prop := q = p ∨ Needs cfg p q

theorem below_req (cfg : Cfg P) (p : P) (r : Req P) (hr : r ∈ cfg.reqs p) (q : P) (h : Below cfg r.pkg q) :
    Needs cfg p q := by
  rcases h with rfl | h
  · exact .direct p r hr
  · exact needs_trans cfg _ _ _ (.direct p r hr) h

theorem build_noCycle (cfg : Cfg P) (hl : Local cfg) (ho : NeedsOnce cfg) (hh : ∀ p, cfg.hook p = true)
    (f : Nat) : ∀ p k s, (∀ x, Below cfg p x → ¬ Needs cfg x x) → (∀ x, Below cfg p x → x ∉ s.path) →
      (∀ c q, (build cfg f p k s).1 ≠ some (.cycle c q)) ∧ (build cfg f p k s).1 ≠ some .missingHook ∧
      ∀ x, x ∈ (build cfg f p k s).2.path → x ∈ s.path ∨ Below cfg p x := by
  induction f with
  | zero => intro p k s _ _; simp [build]; intro x hx; exact Or.inl hx
  | succ f ih =>
    intro p k s hac hd
    simp only [build]
    rw [if_neg (hd p (Or.inl rfl))]
    have key : ∀ (rs : List (Req P)) (s : St P), (∀ r, r ∈ rs → r ∈ cfg.reqs p) →
        rs.Pairwise (fun r r' => ∀ q, Below cfg r.pkg q → Below cfg r'.pkg q → False) →
        (∀ r, r ∈ rs → ∀ x, Below cfg r.pkg x → x ∉ s.path) →
        (∀ c q, (runAll (askWith (build cfg f)) rs s).1 ≠ some (.cycle c q)) ∧
        (runAll (askWith (build cfg f)) rs s).1 ≠ some .missingHook ∧
        ∀ x, x ∈ (runAll (askWith (build cfg f)) rs s).2.path → x ∈ s.path ∨ Needs cfg p x := by
      intro rs
      induction rs with
      | nil => intro s _ _ _; simp [runAll]; intro x hx; exact Or.inl hx
      | cons r rs ih2 =>
        intro s hrs hpw hdis
        have hr := hrs r (by simp)
        have hfr := hl p r hr
        have h1 : (∀ c q, (askWith (build cfg f) r s).1 ≠ some (.cycle c q)) ∧
            (askWith (build cfg f) r s).1 ≠ some .missingHook ∧
            ∀ x, x ∈ (askWith (build cfg f) r s).2.path → x ∈ s.path ∨ Below cfg r.pkg x := by
          simp only [askWith]
          split
          · simp; intro x hx; exact Or.inl hx
          · have g := ih r.pkg r.kind (clear r.pkg s)
              (fun x hx => hac x (Or.inr (below_req cfg p r hr x hx))) (hdis r (by simp))
            simp only [attempt, withPath, hfr, Bool.false_eq_true, if_false]
            cases hx : build cfg f r.pkg r.kind (clear r.pkg s) with
            | mk o s' =>
              rw [hx] at g
              cases o with
              | none => simp; simpa using g
              | some e =>
                have hne : ¬ (e = .missingHook ∧ r.kind = .metadata) := by
                  rintro ⟨rfl, _⟩; exact g.2.1 rfl
                simp only [if_neg hne]
                simpa using g
        simp only [runAll]
        split
        · rename_i e s' he
          rw [he] at h1
          refine ⟨by simpa using h1.1, by simpa using h1.2.1, fun x hx => ?_⟩
          rcases h1.2.2 x hx with h | h
          · exact Or.inl h
          · exact Or.inr (below_req cfg p r hr x h)
        · rename_i s' he
          rw [he] at h1
          rw [List.pairwise_cons] at hpw
          have h2 := ih2 s' (fun r hr => hrs r (by simp [hr])) hpw.2 (by
            intro r' hr' x hx hxs
            rcases h1.2.2 x hxs with h | h
            · exact hdis r' (by simp [hr']) x hx h
            · exact hpw.1 r' hr' x h hx)
          refine ⟨h2.1, h2.2.1, fun x hx => ?_⟩
          rcases h2.2.2 x hx with h | h
          · rcases h1.2.2 x h with h | h
            · exact Or.inl h
            · exact Or.inr (below_req cfg p r hr x h)
          · exact Or.inr h
    have h2 := key (cfg.reqs p) { s with path := s.path ++ [p], log := s.log ++ [.start p] } (fun r hr => hr)
      (ho p) (by
        intro r hr x hx hxs
        simp at hxs
        rcases hxs with h | rfl
        · exact hd x (Or.inr (below_req cfg p r hr x hx)) h
        · exact hac x (Or.inl rfl) (below_req cfg x r hr x hx))
    have hpath : ∀ x, x ∈ s.path ++ [p] ∨ Needs cfg p x → x ∈ s.path ∨ Below cfg p x := by
      intro x hx
      simp at hx
      rcases hx with (h | rfl) | h
      · exact Or.inl h
      · exact Or.inr (Or.inl rfl)
      · exact Or.inr (Or.inr h)
    split
    · rename_i e s' he
      rw [he] at h2
      exact ⟨by simpa using h2.1, by simpa using h2.2.1, fun x hx => hpath x (h2.2.2 x hx)⟩
    · rename_i s' he
      rw [he] at h2
      simp only [finish]
      have hk : ¬ (k = .metadata ∧ cfg.hook p = false) := by simp [hh]
      rw [if_neg hk]
      split
      · exact ⟨by simp, by simp, fun x hx => hpath x (h2.2.2 x hx)⟩
      · exact ⟨by simp, by simp, fun x hx => hpath x (h2.2.2 x hx)⟩

end Pkm.Build
