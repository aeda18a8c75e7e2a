import Verif.Repos.Model
set_option linter.unusedVariables false
set_option linter.unusedSimpArgs false
/-
Property C39: the chain of repository configurations.
-/
namespace Pkm
open Repos

namespace Spec

/-- The configurations that `self` inherits from, directly or not. The flag says whether the parents
of the configuration are inherited from as well. -/
inductive Inherits {N : Type} (parents : N → List (N × Bool)) (self : N) : N → Bool → Prop
  | self : Inherits parents self self true
  | parent {n m : N} {b : Bool} : Inherits parents self n true → (m, b) ∈ parents n →
      Inherits parents self m b

end Spec
open Spec

variable {N H : Type} [DecidableEq H]

theorem chainLoop_mono (path : N → H) (parents : N → List (N × Bool)) : ∀ (fuel : Nat)
    (pending : List (N × Bool)) (closed : List H) (c : List N),
    chainLoop path parents fuel pending closed = some c →
    ∀ k, chainLoop path parents (fuel + k) pending closed = some c := by
  intro fuel
  induction fuel with
  | zero => intro pending closed c h; simp [chainLoop] at h
  | succ fuel ih =>
    intro pending closed c h k
    have e : fuel + 1 + k = (fuel + k) + 1 := by omega
    rw [e]
    cases pending with
    | nil => simpa [chainLoop] using h
    | cons p rest =>
      obtain ⟨r, b⟩ := p
      unfold chainLoop at h ⊢
      dsimp only at h ⊢
      split at h
      · rename_i hc; rw [if_pos hc]; exact ih _ _ _ h k
      · rename_i hc
        rw [if_neg hc]
        rw [Option.map_eq_some_iff] at h
        obtain ⟨c', h1, h2⟩ := h
        rw [ih _ _ _ h1 k]
        simpa using h2

theorem filter_not_closed_lt (U : List H) (closed : List H) (x : H) (hx : x ∈ U) (hn : x ∉ closed) :
    (U.filter (fun y => decide (y ∉ x :: closed))).length < (U.filter (fun y => decide (y ∉ closed))).length := by
  have h2 : (U.filter (fun y => decide (y ∉ x :: closed))) =
      (U.filter (fun y => decide (y ∉ closed))).filter (fun y => decide (y ≠ x)) := by
    rw [List.filter_filter]
    apply List.filter_congr
    intro y _
    simp [not_or]
  rw [h2]
  have hm : x ∈ U.filter (fun y => decide (y ∉ closed)) := by simp [List.mem_filter, hx, hn]
  generalize U.filter (fun y => decide (y ∉ closed)) = V at hm
  clear h2
  induction V with
  | nil => simp at hm
  | cons v V ih =>
    by_cases hv : v = x
    · subst hv
      rw [List.filter_cons_of_neg (by simp)]
      have := List.length_filter_le (fun y => decide (y ≠ v)) V
      simp only [List.length_cons]; omega
    · rw [List.filter_cons_of_pos (by simpa using hv)]
      have : x ∈ V := by
        rcases List.mem_cons.1 hm with h | h
        · exact absurd h.symm hv
        · exact h
      simpa using ih this

/-- The loop stops if there are only finitely many configuration paths. -/
theorem chainLoop_terminates (path : N → H) (parents : N → List (N × Bool)) (self : N) (U : List H)
    (hU : ∀ n b, Inherits parents self n b → path n ∈ U) :
    ∀ (k : Nat) (closed : List H), (U.filter (fun y => decide (y ∉ closed))).length ≤ k →
    ∀ pending : List (N × Bool), (∀ p ∈ pending, Inherits parents self p.1 p.2) →
    ∃ fuel c, chainLoop path parents fuel pending closed = some c := by
  intro k
  induction k with
  | zero =>
    intro closed hk pending
    induction pending with
    | nil => intro _; exact ⟨1, [], rfl⟩
    | cons p rest ih =>
      intro hp
      obtain ⟨r, b⟩ := p
      have hr := hU r b (hp (r, b) (by simp))
      have hc : path r ∈ closed := by
        apply Classical.byContradiction
        intro hn
        have := filter_not_closed_lt U closed (path r) hr hn
        omega
      obtain ⟨fuel, c, h⟩ := ih (fun q hq => hp q (by simp [hq]))
      exact ⟨fuel + 1, c, by unfold chainLoop; dsimp only; rw [if_pos hc]; exact h⟩
  | succ k ihk =>
    intro closed hk pending
    induction pending with
    | nil => intro _; exact ⟨1, [], rfl⟩
    | cons p rest ih =>
      intro hp
      obtain ⟨r, b⟩ := p
      have hrr := hp (r, b) (by simp)
      by_cases hc : path r ∈ closed
      · obtain ⟨fuel, c, h⟩ := ih (fun q hq => hp q (by simp [hq]))
        exact ⟨fuel + 1, c, by unfold chainLoop; dsimp only; rw [if_pos hc]; exact h⟩
      · have hlt := filter_not_closed_lt U closed (path r) (hU r b hrr) hc
        obtain ⟨fuel, c, h⟩ := ihk (path r :: closed) (by omega)
          (if b then (parents r).reverse ++ rest else rest) (by
            intro q hq
            cases b with
            | false => exact hp q (by simp at hq; simp [hq])
            | true =>
              simp at hq
              rcases hq with hq | hq
              · exact .parent hrr hq
              · exact hp q (by simp [hq]))
        exact ⟨fuel + 1, r :: c, by unfold chainLoop; dsimp only; rw [if_neg hc, h]; rfl⟩

/-- C39: the lookup chain is computed in finitely many steps whenever there are finitely many
configurations, even if they inherit from each other in cycles; the result does not depend on how many
steps are allowed. -/
theorem lookup_chain_terminates (path : N → H) (parents : N → List (N × Bool)) (mode : N → Mode)
    (globalMan self : N) (U : List H) (hU : ∀ n b, Inherits parents self n b → path n ∈ U) :
    ∃ fuel chain, ∀ k, lookupChain path parents mode globalMan (fuel + k) self = some chain := by
  unfold lookupChain
  cases mode self with
  | global => exact ⟨0, _, fun _ => rfl⟩
  | noInherit => exact ⟨0, _, fun _ => rfl⟩
  | context =>
    obtain ⟨fuel, c, h⟩ := chainLoop_terminates path parents self U hU _ [] (Nat.le_refl _) [(self, true)]
      (by intro p hp; simp at hp; subst hp; exact .self)
    exact ⟨fuel, c, fun k => chainLoop_mono _ _ _ _ _ _ h k⟩

theorem chainLoop_sound (path : N → H) (parents : N → List (N × Bool)) (self : N) : ∀ (fuel : Nat)
    (pending : List (N × Bool)) (closed : List H) (c : List N),
    (∀ p ∈ pending, Inherits parents self p.1 p.2) →
    chainLoop path parents fuel pending closed = some c →
    (c.map path).Nodup ∧ (∀ n ∈ c, path n ∉ closed) ∧ ∀ n ∈ c, ∃ b, Inherits parents self n b := by
  intro fuel
  induction fuel with
  | zero => intro pending closed c _ h; simp [chainLoop] at h
  | succ fuel ih =>
    intro pending closed c hp h
    cases pending with
    | nil => simp [chainLoop] at h; subst h; simp
    | cons p rest =>
      obtain ⟨r, b⟩ := p
      unfold chainLoop at h
      dsimp only at h
      have hrr := hp (r, b) (by simp)
      split at h
      · exact ih _ _ _ (fun q hq => hp q (by simp [hq])) h
      · rename_i hc
        rw [Option.map_eq_some_iff] at h
        obtain ⟨c', h1, rfl⟩ := h
        obtain ⟨i1, i2, i3⟩ := ih _ _ _ (by
            intro q hq
            cases b with
            | false => exact hp q (by simp at hq; simp [hq])
            | true =>
              simp at hq
              rcases hq with hq | hq
              · exact .parent hrr hq
              · exact hp q (by simp [hq])) h1
        refine ⟨?_, ?_, ?_⟩
        · rw [List.map_cons, List.nodup_cons]
          refine ⟨?_, i1⟩
          intro hm
          obtain ⟨n, hn, he⟩ := List.mem_map.1 hm
          exact i2 n hn (by simp [he])
        · intro n hn
          rcases List.mem_cons.1 hn with rfl | hn
          · exact hc
          · exact fun h => i2 n hn (by simp [h])
        · intro n hn
          rcases List.mem_cons.1 hn with rfl | hn
          · exact ⟨b, hrr⟩
          · exact i3 n hn

/-- C39: no configuration is visited twice, only configurations that are inherited from are visited,
and the own configuration comes first; without inheritance it is the only one. (The mode "global": see
`lookup_chain_global_violated`.) -/
theorem lookup_chain_once (path : N → H) (parents : N → List (N × Bool)) (mode : N → Mode)
    (globalMan self : N) (fuel : Nat) (chain : List N) (hm : mode self ≠ .global)
    (h : lookupChain path parents mode globalMan fuel self = some chain) :
    (chain.map path).Nodup ∧ (∀ n ∈ chain, ∃ b, Inherits parents self n b) ∧ chain.head? = some self ∧
      (mode self = .noInherit → ∀ n ∈ chain, n = self) := by
  unfold lookupChain at h
  cases hmode : mode self with
  | global => exact absurd hmode hm
  | noInherit =>
    rw [hmode] at h
    cases h
    exact ⟨by simp, by intro n hn; simp at hn; subst hn; exact ⟨_, .self⟩, rfl, by simp⟩
  | context =>
  rw [hmode] at h
  refine (fun hx => ⟨hx.1, hx.2.1, hx.2.2, fun e => by cases e⟩ : _ ∧ _ ∧ _ → _) ?_
  obtain ⟨h1, _, h3⟩ := chainLoop_sound path parents self fuel [(self, true)] [] chain
    (by intro p hp; simp at hp; subst hp; exact .self) h
  refine ⟨h1, h3, ?_⟩
  cases fuel with
  | zero => simp [chainLoop] at h
  | succ fuel =>
    unfold chainLoop at h
    dsimp only at h
    rw [if_neg (by simp), Option.map_eq_some_iff] at h
    obtain ⟨c', _, rfl⟩ := h
    rfl

theorem chainLoop_covers (path : N → H) (parents : N → List (N × Bool)) (self : N)
    (hpar : ∀ n m b c, Inherits parents self n b → Inherits parents self m c → path n = path m →
      parents n = parents m ∧ (b = c ∨ path n = path self)) : ∀ (fuel : Nat)
    (pending : List (N × Bool)) (closed : List H) (c : List N),
    (∀ p ∈ pending, Inherits parents self p.1 p.2) →
    ((closed = [] ∧ pending = [(self, true)]) ∨ path self ∈ closed) →
    (∀ n, Inherits parents self n true → path n ∈ closed → ∀ m b, (m, b) ∈ parents n →
      path m ∈ closed ∨ (m, b) ∈ pending) →
    chainLoop path parents fuel pending closed = some c →
    path self ∈ closed ++ c.map path ∧
    ∀ n, Inherits parents self n true → path n ∈ closed ++ c.map path → ∀ m b, (m, b) ∈ parents n →
      path m ∈ closed ++ c.map path := by
  intro fuel
  induction fuel with
  | zero => intro pending closed c _ _ _ h; simp [chainLoop] at h
  | succ fuel ih =>
    intro pending closed c hp hself hcov h
    cases pending with
    | nil =>
      simp [chainLoop] at h
      subst h
      rcases hself with ⟨_, h⟩ | hself
      · simp at h
      · refine ⟨by simpa using hself, ?_⟩
        intro n hn hm m b hmb
        simp at hm ⊢
        rcases hcov n hn hm m b hmb with h | h
        · exact h
        · simp at h
    | cons p rest =>
      obtain ⟨r, inh⟩ := p
      unfold chainLoop at h
      dsimp only at h
      have hrr := hp (r, inh) (by simp)
      split at h
      · rename_i hc
        refine ih rest closed c (fun q hq => hp q (by simp [hq])) ?_ ?_ h
        · rcases hself with ⟨h1, h2⟩ | h1
          · subst h1; simp at hc
          · exact Or.inr h1
        · intro n hn hcl m b hmb
          rcases hcov n hn hcl m b hmb with h | h
          · exact Or.inl h
          · rcases List.mem_cons.1 h with h | h
            · simp at h; obtain ⟨rfl, rfl⟩ := h; exact Or.inl hc
            · exact Or.inr h
      · rename_i hc
        rw [Option.map_eq_some_iff] at h
        obtain ⟨c', h1, rfl⟩ := h
        have hinh : ∀ n, Inherits parents self n true → path n = path r → inh = true := by
          intro n hn he
          rcases hself with ⟨hcl, hpe⟩ | hcl
          · simp at hpe; exact hpe.1.2
          · rcases (hpar n r true inh hn hrr he).2 with h | h
            · exact h.symm
            · rw [he] at h; rw [← h] at hcl; exact absurd hcl hc
        have key := ih (if inh then (parents r).reverse ++ rest else rest) (path r :: closed) c' (by
            intro q hq
            cases inh with
            | false => exact hp q (by simp at hq; simp [hq])
            | true =>
              simp at hq
              rcases hq with hq | hq
              · exact .parent hrr hq
              · exact hp q (by simp [hq])) (by
            right
            rcases hself with ⟨_, h2⟩ | h2
            · simp at h2; rw [h2.1.1]; simp
            · simp [h2]) (by
            intro n hn hcl m b hmb
            by_cases he : path n = path r
            · have hi := hinh n hn he
              subst hi
              right
              have := (hpar n r true true hn hrr he).1
              rw [this] at hmb
              simp [hmb]
            · have hcl' : path n ∈ closed := by
                rcases List.mem_cons.1 hcl with h | h
                · exact absurd h he
                · exact h
              rcases hcov n hn hcl' m b hmb with h | h
              · exact Or.inl (by simp [h])
              · rcases List.mem_cons.1 h with h' | h'
                · simp at h'; obtain ⟨rfl, rfl⟩ := h'; exact Or.inl (by simp)
                · right; cases inh <;> simp [h']) h1
        have hmem : ∀ x, x ∈ (path r :: closed) ++ c'.map path ↔ x ∈ closed ++ (r :: c').map path := by
          intro x; simp only [List.map_cons, List.mem_append, List.mem_cons, List.cons_append]
          constructor
          · rintro (h | h | h) <;> simp [h]
          · rintro (h | h | h) <;> simp [h]
        refine ⟨(hmem _).1 key.1, ?_⟩
        intro n hn hx m b hmb
        exact (hmem _).1 (key.2 n hn ((hmem _).2 hx) m b hmb)

/-- C39, if a configuration is always inherited from in the same way (with or without its parents):
every configuration that is inherited from is visited. Missing: a configuration reached first without
and then with its parents, see `lookup_chain_violated`, and the mode "global", see
`lookup_chain_global_violated`. -/
theorem lookup_chain_complete_partial (path : N → H) (parents : N → List (N × Bool)) (mode : N → Mode)
    (globalMan self : N) (fuel : Nat) (chain : List N) (hm : mode self = .context)
    (hpar : ∀ n m b c, Inherits parents self n b → Inherits parents self m c → path n = path m →
      parents n = parents m ∧ (b = c ∨ path n = path self))
    (h : lookupChain path parents mode globalMan fuel self = some chain) (n : N) (b : Bool)
    (hn : Inherits parents self n b) : path n ∈ chain.map path := by
  unfold lookupChain at h
  rw [hm] at h
  obtain ⟨h1, h2⟩ := chainLoop_covers path parents self hpar fuel [(self, true)] [] chain
    (by intro p hp; simp at hp; subst hp; exact .self) (Or.inl ⟨rfl, rfl⟩) (by simp) h
  simp only [List.nil_append] at h1 h2
  induction hn with
  | self => exact h1
  | parent hn' hmb ih => exact h2 _ hn' ih _ _ hmb

section
/-- The contexts of pkm: a project with an environment and a group, a zoo and the global configuration
(rm 188-189, 207-208, 225-230, 255-256). -/
private def pkmParents : Nat → List (Nat × Bool)
  | 0 => [(1, true), (2, false)]  -- project: environment, group
  | 1 => [(3, true)]              -- environment: zoo
  | 2 => [(4, true)]              -- group: global
  | 3 => [(4, true)]              -- zoo: global
  | _ => []

example : lookupChain (fun n : Nat => n) pkmParents (fun _ => .context) 4 9 0 = some [0, 2, 1, 3, 4] := by
  decide

/-- The hypothesis of `lookup_chain_complete_partial` holds for it. -/
example : ∀ n m b c, Inherits pkmParents 0 n b → Inherits pkmParents 0 m c → n = m →
    pkmParents n = pkmParents m ∧ (b = c ∨ n = 0) := by
  have key : ∀ n b, Inherits pkmParents 0 n b → (b = false ↔ n = 2) ∧ n ≤ 4 := by
    intro n b h
    induction h with
    | self => simp
    | @parent n m b hn hm ih =>
      obtain ⟨h1, h2⟩ := ih
      have : n = 0 ∨ n = 1 ∨ n = 3 ∨ n = 4 := by
        simp at h1; omega
      rcases this with rfl | rfl | rfl | rfl <;> simp [pkmParents] at hm
      · rcases hm with ⟨rfl, rfl⟩ | ⟨rfl, rfl⟩ <;> simp
      · obtain ⟨rfl, rfl⟩ := hm; simp
      · obtain ⟨rfl, rfl⟩ := hm; simp
  intro n m b c h1 h2 e
  subst e
  refine ⟨rfl, Or.inl ?_⟩
  have k1 := (key n b h1).1
  have k2 := (key n c h2).1
  cases b <;> cases c <;> simp_all

/-- A cycle of two configurations. -/
example : lookupChain (fun n : Nat => n) (fun n => [(1 - n, true)]) (fun _ => .context) 4 9 0 = some [0, 1] := by
  decide

/-- C39 fails if a configuration is reached first without its parents and then with them: 3 is inherited
through 0, 1, 2 but not visited. -/
theorem lookup_chain_violated :
    let parents : Nat → List (Nat × Bool) := fun n =>
      if n = 0 then [(1, true), (2, false)] else if n = 1 then [(2, true)] else if n = 2 then [(3, true)] else []
    Inherits parents 0 3 true ∧
      lookupChain (fun n : Nat => n) parents (fun _ => .context) 9 9 0 = some [0, 2, 1] := by
  refine ⟨?_, by decide⟩
  exact .parent (n := 2) (.parent (n := 1) (.parent (n := 0) .self (by simp)) (by simp)) (by simp)

/-- C39 fails for the inheritance mode "global": the own configuration is not part of the chain. -/
theorem lookup_chain_global_violated (path : N → H) (parents : N → List (N × Bool)) (mode : N → Mode)
    (globalMan self : N) (fuel : Nat) (hm : mode self = .global) :
    lookupChain path parents mode globalMan fuel self = some [globalMan] := by
  unfold lookupChain; rw [hm]
end

end Pkm
