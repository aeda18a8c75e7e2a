import Verif.Display.Handling
set_option linter.unusedVariables false
set_option linter.unusedSimpArgs false
/-
Theorems about the message about packages in work (C107).
-/
namespace Pkm
open Handling

namespace Spec

/-- The operations that have begun and not ended, in the order of their beginning. -/
def inWork : List Ev → List Nat
  | [] => []
  | .began i :: es => match inWork es with
    | l => if Ev.ended i ∈ es then l else i :: l
  | .ended _ :: es => inWork es

/-- What a user should read while these packages are handled. -/
def message : List Pack → Text
  | [] => t!"Handling Packages: "
  | [a] => t!"Handling Packages: " ++ a.name ++ t!" " ++ a.version
  | [a, b] => t!"Handling Packages: " ++ a.name ++ t!" " ++ a.version ++ t!"," ++ b.name ++ t!" " ++ b.version
  | [a, b, c] => t!"Handling Packages: " ++ a.name ++ t!" " ++ a.version ++ t!"," ++ b.name ++ t!" " ++ b.version ++
      t!"," ++ c.name ++ t!" " ++ c.version
  | a :: b :: c :: rest => t!"Handling Packages: " ++ a.name ++ t!" " ++ a.version ++ t!"," ++ b.name ++ t!" " ++ b.version ++
      t!"," ++ c.name ++ t!" " ++ c.version ++ t!" and " ++ showNat rest.length ++ t!" more..."

end Spec
open Spec

namespace Handling

theorem description_message (ps : List Pack) : description ps = message ps := by
  rcases ps with _ | ⟨a, _ | ⟨b, _ | ⟨c, _ | ⟨d, r⟩⟩⟩⟩ <;>
    simp [description, message, commas]

/-- In a part that holds the lock. -/
def crit : At → Bool
  | .showing | .adding | .describing | .removing | .finishing => true
  | _ => false

/-- Counted as in work. -/
def busy : At → Bool
  | .describing | .body | .removing => true
  | _ => false

/-- `began` and `ended` have been written. -/
def hasBegun : At → Bool
  | .idle | .showing | .adding => false
  | _ => true

def hasEnded : At → Bool
  | .finishing | .done => true
  | _ => false

theorem inWork_mem : ∀ {l : List Ev} {i : Nat}, (∀ pre post, l = pre ++ Ev.ended i :: post → Ev.began i ∉ post) →
    (i ∈ inWork l ↔ Ev.began i ∈ l ∧ Ev.ended i ∉ l)
  | [], i, _ => by simp [inWork]
  | .began j :: es, i, h => by
    have ih := inWork_mem (l := es) (i := i) (fun pre post e => h (.began j :: pre) post (by simp [e]))
    simp only [inWork]
    by_cases hj : j = i
    · subst hj
      split
      · rename_i hm; rw [ih]; simp [hm]
      · rename_i hm; simp [hm]
    · split
      · rw [ih]; simp [Ne.symm hj]
      · simp [ih, Ne.symm hj]
  | .ended j :: es, i, h => by
    have ih := inWork_mem (l := es) (i := i) (fun pre post e => h (.ended j :: pre) post (by simp [e]))
    simp only [inWork]
    by_cases hj : j = i
    · subst hj
      have := h [] es rfl
      rw [ih]; simp [this]
    · rw [ih]; simp [Ne.symm hj]

theorem inWork_began {l : List Ev} {i : Nat} : inWork (l ++ [.began i]) = inWork l ++ [i] := by
  induction l with
  | nil => simp [inWork]
  | cons e es ih =>
    cases e with
    | began j =>
      simp only [List.cons_append, inWork, ih]
      by_cases h : Ev.ended j ∈ es <;> simp [h]
    | ended j => simpa [inWork] using ih

theorem inWork_ended {l : List Ev} {i : Nat} (hn : (inWork l).Nodup) (hone : l.count (.began i) ≤ 1)
    (hno : Ev.ended i ∉ l) : inWork (l ++ [.ended i]) = (inWork l).erase i := by
  induction l with
  | nil => simp [inWork]
  | cons e es ih =>
    cases e with
    | began j =>
      have hne : Ev.ended i ∉ es := fun h => hno (by simp [h])
      simp only [List.cons_append, inWork] at hn ⊢
      by_cases hj : j = i
      · subst hj
        have hz : es.count (.began j) = 0 := by simp at hone; exact hone
        have hnb : Ev.began j ∉ es := by simpa [List.count_eq_zero] using hz
        have hni : j ∉ inWork es := by
          have : ∀ {l : List Ev}, Ev.began j ∉ l → j ∉ inWork l := by
            intro l
            induction l with
            | nil => simp [inWork]
            | cons x xs ihx =>
              intro hx
              have hx' : Ev.began j ∉ xs := fun h => hx (by simp [h])
              cases x with
              | began k =>
                have hk : j ≠ k := fun h => hx (by simp [h])
                simp only [inWork]
                split
                · exact ihx hx'
                · simp [hk, ihx hx']
              | ended k => simpa [inWork] using ihx hx'
          exact this hnb
        have hn' : (inWork es).Nodup := by
          rw [if_neg hne] at hn
          exact (List.nodup_cons.mp hn).2
        have := ih hn' (by omega) hne
        rw [if_pos (by simp), this, if_neg hne]
        simp [List.erase_of_not_mem hni]
      · have hc : es.count (.began i) ≤ 1 := by
          have : Ev.began j ≠ Ev.began i := by simp [hj]
          simpa [List.count_cons, hj] using hone
        have hn' : (inWork es).Nodup := by
          split at hn
          · exact hn
          · exact (List.nodup_cons.mp hn).2
        have e1 := ih hn' hc hne
        have e2 : (Ev.ended j ∈ es ++ [.ended i]) ↔ Ev.ended j ∈ es := by simp [hj]
        by_cases h : Ev.ended j ∈ es
        · rw [if_pos (e2.mpr h), if_pos h, e1]
        · rw [if_neg (fun x => h (e2.mp x)), if_neg h, e1, List.erase_cons_tail]
          simp [hj]
    | ended j =>
      have hne : Ev.ended i ∉ es := fun h => hno (by simp [h])
      simp only [List.cons_append, inWork] at hn ⊢
      exact ih hn (by simpa [List.count_cons] using hone) hne

/-- What holds after every step. -/
structure Inv (pkg : Nat → Pack) (s : State) : Prop where
  nodup : (inWork s.log).Nodup
  mem : ∀ i, i ∈ inWork s.log ↔ busy (s.at_ i) = true
  began : ∀ i, s.log.count (.began i) = if hasBegun (s.at_ i) then 1 else 0
  ended : ∀ i, Ev.ended i ∈ s.log ↔ hasEnded (s.at_ i) = true
  perm : s.handled.Perm ((inWork s.log).map pkg)
  lock : ∀ i, crit (s.at_ i) = true ↔ s.lock = some i
  fine : ∀ i, s.at_ i ≠ .failed
  /-- as it is while nobody changes it -/
  calm : (s.lock = none ∨ ∃ i, s.lock = some i ∧ (s.at_ i = .showing ∨ s.at_ i = .removing)) →
    s.shown = (if s.handled = [] then 0 else 1) ∧ (s.handled ≠ [] → s.desc = description s.handled)
  busyShown : ∀ i, s.at_ i = .adding ∨ s.at_ i = .describing ∨ s.at_ i = .finishing → s.shown = 1
  last : ∀ i, s.at_ i = .finishing → s.handled = [] → s.desc = description [pkg i]
  stops : ∀ t, Line.stop t ∈ s.out → ∃ i, t = description [pkg i]

theorem inv_initial (pkg : Nat → Pack) : Inv pkg initial := by
  constructor <;> simp [initial, inWork, busy, hasBegun, hasEnded, crit]

theorem inv_acquire {pkg : Nat → Pack} {s : State} {i : Nat} {a : At} (h : Inv pkg s)
    (ha : s.at_ i = .idle ∧ a = .showing ∨ s.at_ i = .body ∧ a = .removing) : Inv pkg (s.acquire i a) := by
  unfold State.acquire
  cases hl : s.lock with
  | some j => exact h
  | none =>
    have hb : busy a = busy (s.at_ i) := by rcases ha with ⟨x, y⟩ | ⟨x, y⟩ <;> simp [x, y, busy]
    have hg : hasBegun a = hasBegun (s.at_ i) := by rcases ha with ⟨x, y⟩ | ⟨x, y⟩ <;> simp [x, y, hasBegun]
    have he : hasEnded a = hasEnded (s.at_ i) := by rcases ha with ⟨x, y⟩ | ⟨x, y⟩ <;> simp [x, y, hasEnded]
    have hc : crit a = true := by rcases ha with ⟨x, y⟩ | ⟨x, y⟩ <;> simp [x, y, crit]
    have hno : ∀ j, crit (s.at_ j) = false := fun j => by
      cases hcj : crit (s.at_ j) with
      | false => rfl
      | true => have := (h.lock j).mp hcj; rw [hl] at this; cases this
    have hcalm := h.calm (.inl hl)
    refine ⟨h.nodup, ?_, ?_, ?_, h.perm, ?_, ?_, ?_, ?_, ?_, h.stops⟩
    · intro j
      simp only [State.go]
      split
      · rename_i e; subst e; rw [hb]; exact h.mem j
      · exact h.mem j
    · intro j
      simp only [State.go]
      split
      · rename_i e; subst e; rw [hg]; exact h.began j
      · exact h.began j
    · intro j
      simp only [State.go]
      split
      · rename_i e; subst e; rw [he]; exact h.ended j
      · exact h.ended j
    · intro j
      simp only [State.go]
      split
      · rename_i e; subst e; simp [hc]
      · rename_i e; simp [hno j, Ne.symm e]
    · intro j
      simp only [State.go]
      split
      · rcases ha with ⟨_, y⟩ | ⟨_, y⟩ <;> simp [y]
      · exact h.fine j
    · intro _; exact hcalm
    · intro j hj
      simp only [State.go] at hj
      split at hj
      · rcases ha with ⟨_, y⟩ | ⟨_, y⟩ <;> simp [y] at hj
      · have := hno j
        rcases hj with x | x | x <;> simp [x, crit] at this
    · intro j hj
      simp only [State.go] at hj
      split at hj
      · rcases ha with ⟨_, y⟩ | ⟨_, y⟩ <;> simp [y] at hj
      · have := hno j
        simp [hj, crit] at this

theorem erase_nil {α} [DecidableEq α] {l : List α} {a : α} (hm : a ∈ l) (h : l.erase a = []) : l = [a] := by
  cases l with
  | nil => simp at hm
  | cons b bs =>
    by_cases hb : b = a
    · subst hb; simp at h; simp [h]
    · rw [List.erase_cons_tail (by simpa using hb)] at h; cases h

theorem inv_step {pkg : Nat → Pack} {s : State} (i : Nat) (h : Inv pkg s) : Inv pkg (step pkg i s) := by
  have only : ∀ j, crit (s.at_ i) = true → crit (s.at_ j) = true → j = i := fun j hi hj => by
    have a := (h.lock i).mp hi
    have b := (h.lock j).mp hj
    rw [a] at b; cases b; rfl
  cases hat : s.at_ i with
  | idle => rw [show step pkg i s = s.acquire i .showing by simp [step, hat]]; exact inv_acquire h (.inl ⟨hat, rfl⟩)
  | body => rw [show step pkg i s = s.acquire i .removing by simp [step, hat]]; exact inv_acquire h (.inr ⟨hat, rfl⟩)
  | done => rw [show step pkg i s = s by simp [step, hat]]; exact h
  | failed => exact absurd hat (h.fine i)
  | showing =>
    have hl : s.lock = some i := (h.lock i).mp (by simp [hat, crit])
    have hcalm := h.calm (.inr ⟨i, hl, .inl hat⟩)
    have only' : ∀ j, j ≠ i → crit (s.at_ j) = false := fun j hj => by
      cases hc : crit (s.at_ j) with
      | false => rfl
      | true => exact absurd (only j (by simp [hat, crit]) hc) hj
    have key : ∀ o, (∀ t, Line.stop t ∈ o → ∃ i, t = description [pkg i]) →
        Inv pkg { s.go i .adding with shown := 1, out := o } := by
      intro o ho
      refine ⟨h.nodup, ?_, ?_, ?_, h.perm, ?_, ?_, ?_, ?_, ?_, ho⟩
      · intro j
        simp only [State.go]
        split
        · rename_i e; subst e; have := h.mem j; simpa [hat, busy] using this
        · exact h.mem j
      · intro j
        simp only [State.go]
        split
        · rename_i e; subst e; have := h.began j; simpa [hat, hasBegun] using this
        · exact h.began j
      · intro j
        simp only [State.go]
        split
        · rename_i e; subst e; have := h.ended j; simpa [hat, hasEnded] using this
        · exact h.ended j
      · intro j
        simp only [State.go]
        split
        · rename_i e; subst e; simp [crit, hl]
        · exact h.lock j
      · intro j
        simp only [State.go]
        split
        · simp
        · exact h.fine j
      · intro hc
        simp only [State.go, hl] at hc
        rcases hc with hc | ⟨j, hj, hc⟩
        · cases hc
        · cases hj; simp at hc
      · intro _ _; rfl
      · intro j hj
        simp only [State.go] at hj
        split at hj
        · cases hj
        · rename_i e; have := only' j e; simp [hj, crit] at this
    by_cases he : s.handled = []
    · have : step pkg i s = { s.go i .adding with shown := 1, out := s.out ++ [.start s.desc] } := by
        simp [step, hat, he, hcalm.1]
      rw [this]
      refine key _ (fun t ht => ?_)
      simp at ht
      exact h.stops t ht
    · have : step pkg i s = { s.go i .adding with shown := 1, out := s.out } := by
        have h1 : s.shown = 1 := by simpa [he] using hcalm.1
        simp [step, hat, he, State.go, ← h1]
      rw [this]
      exact key _ h.stops
  | adding =>
    have hl : s.lock = some i := (h.lock i).mp (by simp [hat, crit])
    have only' : ∀ j, j ≠ i → crit (s.at_ j) = false := fun j hj => by
      cases hc : crit (s.at_ j) with
      | false => rfl
      | true => exact absurd (only j (by simp [hat, crit]) hc) hj
    have hs := h.busyShown i (.inl hat)
    have hni : i ∉ inWork s.log := by have := h.mem i; simpa [hat, busy] using this
    have : step pkg i s = { s.go i .describing with handled := s.handled ++ [pkg i], log := s.log ++ [.began i] } := by
      simp [step, hat]
    rw [this]
    refine ⟨?_, ?_, ?_, ?_, ?_, ?_, ?_, ?_, ?_, ?_, h.stops⟩
    · show (inWork (s.log ++ [.began i])).Nodup
      rw [inWork_began]
      refine List.nodup_append.mpr ⟨h.nodup, by simp, ?_⟩
      intro a ha b hb
      simp at hb
      intro e
      exact hni (by rw [← hb, ← e]; exact ha)
    · intro j
      show j ∈ inWork (s.log ++ [.began i]) ↔ _
      rw [inWork_began]
      simp only [State.go, List.mem_append, List.mem_singleton]
      split
      · rename_i e; simp [e, busy]
      · rename_i e; simp [e, h.mem j]
    · intro j
      show (s.log ++ [Ev.began i]).count (Ev.began j) = _
      rw [List.count_append, h.began j]
      simp only [State.go]
      by_cases e : j = i
      · subst e; simp [hat, hasBegun]
      · have hb : (Ev.began i == Ev.began j) = false := by simpa using Ne.symm e
        simp [List.count_cons, hb, e]
    · intro j
      show Ev.ended j ∈ s.log ++ [.began i] ↔ _
      simp only [State.go, List.mem_append, List.mem_singleton, reduceCtorEq, or_false, h.ended j]
      split
      · rename_i e; subst e; simp [hat, hasEnded]
      · rfl
    · show (s.handled ++ [pkg i]).Perm _
      rw [inWork_began]
      simpa using h.perm.append_right [pkg i]
    · intro j
      simp only [State.go]
      split
      · rename_i e; subst e; simp [crit, hl]
      · exact h.lock j
    · intro j
      simp only [State.go]
      split
      · simp
      · exact h.fine j
    · intro hc
      simp only [State.go, hl] at hc
      rcases hc with hc | ⟨j, hj, hc⟩
      · cases hc
      · cases hj; simp at hc
    · intro _ _; exact hs
    · intro j hj
      simp only [State.go] at hj
      split at hj
      · cases hj
      · rename_i e; have := only' j e; simp [hj, crit] at this
  | describing =>
    have hl : s.lock = some i := (h.lock i).mp (by simp [hat, crit])
    have only' : ∀ j, j ≠ i → crit (s.at_ j) = false := fun j hj => by
      cases hc : crit (s.at_ j) with
      | false => rfl
      | true => exact absurd (only j (by simp [hat, crit]) hc) hj
    have hs := h.busyShown i (.inr (.inl hat))
    have hin : i ∈ inWork s.log := (h.mem i).mpr (by simp [hat, busy])
    have hne : s.handled ≠ [] := by
      intro e
      have := h.perm
      rw [e] at this
      have := this.nil_eq
      simp at this
      rw [this] at hin; simp at hin
    have : step pkg i s = { s.go i .body with desc := description s.handled, lock := none } := by simp [step, hat]
    rw [this]
    refine ⟨h.nodup, ?_, ?_, ?_, h.perm, ?_, ?_, ?_, ?_, ?_, h.stops⟩
    · intro j
      simp only [State.go]
      split
      · rename_i e; subst e; simp [hin, busy]
      · exact h.mem j
    · intro j
      simp only [State.go]
      split
      · rename_i e; subst e; have := h.began j; simpa [hat, hasBegun] using this
      · exact h.began j
    · intro j
      simp only [State.go]
      split
      · rename_i e; subst e; have := h.ended j; simpa [hat, hasEnded] using this
      · exact h.ended j
    · intro j
      simp only [State.go]
      split
      · simp [crit]
      · rename_i e; simp [only' j e]
    · intro j
      simp only [State.go]
      split
      · simp
      · exact h.fine j
    · intro _
      exact ⟨by simp [State.go, hne, hs], fun _ => rfl⟩
    · intro j hj
      exact hs
    · intro j hj
      simp only [State.go] at hj
      split at hj
      · cases hj
      · rename_i e; have := only' j e; simp [hj, crit] at this
  | removing =>
    have hl : s.lock = some i := (h.lock i).mp (by simp [hat, crit])
    have hcalm := h.calm (.inr ⟨i, hl, .inr hat⟩)
    have only' : ∀ j, j ≠ i → crit (s.at_ j) = false := fun j hj => by
      cases hc : crit (s.at_ j) with
      | false => rfl
      | true => exact absurd (only j (by simp [hat, crit]) hc) hj
    have hin : i ∈ inWork s.log := (h.mem i).mpr (by simp [hat, busy])
    have hp : pkg i ∈ s.handled := h.perm.symm.subset (List.mem_map_of_mem hin)
    have hne : s.handled ≠ [] := fun e => by rw [e] at hp; simp at hp
    have hend : Ev.ended i ∉ s.log := by have := h.ended i; simpa [hat, hasEnded] using this
    have hbeg : s.log.count (.began i) = 1 := by have := h.began i; simpa [hat, hasBegun] using this
    have hw := inWork_ended h.nodup (by omega) hend
    have : step pkg i s =
        { s.go i .finishing with handled := s.handled.erase (pkg i), log := s.log ++ [.ended i] } := by
      simp [step, hat, hp]
    rw [this]
    refine ⟨?_, ?_, ?_, ?_, ?_, ?_, ?_, ?_, ?_, ?_, h.stops⟩
    · show (inWork (s.log ++ [.ended i])).Nodup
      rw [hw]; exact h.nodup.erase i
    · intro j
      show j ∈ inWork (s.log ++ [.ended i]) ↔ _
      rw [hw, h.nodup.mem_erase_iff]
      simp only [State.go]
      split
      · rename_i e; simp [e, busy]
      · rename_i e; simp [e, h.mem j]
    · intro j
      show (s.log ++ [Ev.ended i]).count (Ev.began j) = _
      rw [List.count_append, h.began j]
      simp only [State.go]
      by_cases e : j = i
      · subst e; simp [hat, hasBegun]
      · simp [e]
    · intro j
      show Ev.ended j ∈ s.log ++ [.ended i] ↔ _
      simp only [State.go, List.mem_append, List.mem_singleton, h.ended j, Ev.ended.injEq]
      split
      · rename_i e; simp [e, hasEnded]
      · rename_i e; simp [e]
    · show (s.handled.erase (pkg i)).Perm _
      rw [hw]
      have h1 := h.perm.erase (pkg i)
      have h2 : (inWork s.log).Perm (i :: (inWork s.log).erase i) := List.perm_cons_erase hin
      have h3 := (h2.map pkg).erase (pkg i)
      simp only [List.map_cons, List.erase_cons_head] at h3
      exact h1.trans h3
    · intro j
      simp only [State.go]
      split
      · rename_i e; subst e; simp [crit, hl]
      · exact h.lock j
    · intro j
      simp only [State.go]
      split
      · simp
      · exact h.fine j
    · intro hc
      simp only [State.go, hl] at hc
      rcases hc with hc | ⟨j, hj, hc⟩
      · cases hc
      · cases hj; simp at hc
    · intro _ _
      show s.shown = 1
      simpa [hne] using hcalm.1
    · intro j hj he
      simp only [State.go] at hj
      split at hj
      · rename_i e
        subst e
        have := erase_nil hp he
        show s.desc = _
        rw [hcalm.2 hne, this]
      · rename_i e; have := only' j e; simp [hj, crit] at this
  | finishing =>
    have hl : s.lock = some i := (h.lock i).mp (by simp [hat, crit])
    have only' : ∀ j, j ≠ i → crit (s.at_ j) = false := fun j hj => by
      cases hc : crit (s.at_ j) with
      | false => rfl
      | true => exact absurd (only j (by simp [hat, crit]) hc) hj
    have hs := h.busyShown i (.inr (.inr hat))
    have key : ∀ o n d, (∀ t, Line.stop t ∈ o → ∃ i, t = description [pkg i]) →
        n = (if s.handled = [] then 0 else 1) → (s.handled ≠ [] → d = description s.handled) →
        Inv pkg { s.go i .done with shown := n, out := o, desc := d, lock := none } := by
      intro o n d ho hn hd
      refine ⟨h.nodup, ?_, ?_, ?_, h.perm, ?_, ?_, ?_, ?_, ?_, ho⟩
      · intro j
        simp only [State.go]
        split
        · rename_i e; subst e; have := h.mem j; simpa [hat, busy] using this
        · exact h.mem j
      · intro j
        simp only [State.go]
        split
        · rename_i e; subst e; have := h.began j; simpa [hat, hasBegun] using this
        · exact h.began j
      · intro j
        simp only [State.go]
        split
        · rename_i e; subst e; have := h.ended j; simpa [hat, hasEnded] using this
        · exact h.ended j
      · intro j
        simp only [State.go]
        split
        · simp [crit]
        · rename_i e; simp [only' j e]
      · intro j
        simp only [State.go]
        split
        · simp
        · exact h.fine j
      · intro _
        exact ⟨hn, hd⟩
      · intro j hj
        simp only [State.go] at hj
        split at hj
        · simp at hj
        · rename_i e
          have := only' j e
          rcases hj with x | x | x <;> simp [x, crit] at this
      · intro j hj
        simp only [State.go] at hj
        split at hj
        · cases hj
        · rename_i e; have := only' j e; simp [hj, crit] at this
    by_cases he : s.handled = []
    · have : step pkg i s =
          { s.go i .done with shown := 0, out := s.out ++ [.stop s.desc], desc := s.desc, lock := none } := by
        simp [step, hat, he, hs, State.go]
      rw [this]
      refine key _ _ _ (fun t ht => ?_) (by simp [he]) (fun hne => absurd he hne)
      simp at ht
      rcases ht with ht | ht
      · exact h.stops t ht
      · exact ⟨i, ht.trans (h.last i hat he)⟩
    · have : step pkg i s =
          { s.go i .done with shown := 1, out := s.out, desc := description s.handled, lock := none } := by
        simp [step, hat, he, State.go, ← hs]
      rw [this]
      exact key _ _ _ h.stops (by simp [he]) (fun _ => rfl)

theorem inv_run {pkg : Nat → Pack} : ∀ (sched : List Nat) {s : State}, Inv pkg s → Inv pkg (run pkg sched s)
  | [], _, h => h
  | i :: is, _, h => inv_run is (inv_step i h)

theorem map_erase_inj {pkg : Nat → Pack} {i : Nat} : ∀ {l : List Nat}, (∀ j ∈ l, pkg j = pkg i → j = i) →
    (l.map pkg).erase (pkg i) = (l.erase i).map pkg
  | [], _ => rfl
  | j :: l, h => by
    by_cases hj : j = i
    · subst hj; simp
    · have hne : pkg j ≠ pkg i := fun e => hj (h j (by simp) e)
      rw [List.map_cons, List.erase_cons_tail (by simpa using hne), List.erase_cons_tail (by simpa using hj),
        map_erase_inj (fun k hk => h k (by simp [hk]))]
      rfl

theorem order_step {pkg : Nat → Pack} {s : State} (hinj : ∀ i j, pkg i = pkg j → i = j) (i : Nat) (h : Inv pkg s)
    (ho : s.handled = (inWork s.log).map pkg) :
    (step pkg i s).handled = (inWork (step pkg i s).log).map pkg := by
  cases hat : s.at_ i with
  | idle => simp only [step, hat, State.acquire]; cases s.lock <;> exact ho
  | body => simp only [step, hat, State.acquire]; cases s.lock <;> exact ho
  | done => simpa [step, hat] using ho
  | failed => simpa [step, hat] using ho
  | showing => simp only [step, hat]; split <;> exact ho
  | describing => simpa [step, hat, State.go] using ho
  | finishing => simp only [step, hat]; split <;> exact ho
  | adding =>
    simp only [step, hat, State.go]
    rw [inWork_began, ho]; simp
  | removing =>
    have hin : i ∈ inWork s.log := (h.mem i).mpr (by simp [hat, busy])
    have hp : pkg i ∈ s.handled := h.perm.symm.subset (List.mem_map_of_mem hin)
    have hend : Ev.ended i ∉ s.log := by have := h.ended i; simpa [hat, hasEnded] using this
    have hbeg : s.log.count (.began i) = 1 := by have := h.began i; simpa [hat, hasBegun] using this
    simp only [step, hat, if_pos hp, State.go]
    rw [inWork_ended h.nodup (by omega) hend, ho, map_erase_inj (fun j _ e => hinj j i e)]

theorem order_run {pkg : Nat → Pack} (hinj : ∀ i j, pkg i = pkg j → i = j) : ∀ (sched : List Nat) {s : State},
    Inv pkg s → s.handled = (inWork s.log).map pkg →
    (run pkg sched s).handled = (inWork (run pkg sched s).log).map pkg
  | [], _, _, h => h
  | i :: is, _, hI, h => order_run hinj is (inv_step i hI) (order_step hinj i hI h)

end Handling

/-- **C107 (every schedule).** While no thread is changing the message, it is shown exactly if an operation is at work, once, and
tells of the packages of exactly the operations that are at work: those that are between their beginning and their end. -/
theorem handling_shown (pkg : Nat → Pack) (sched : List Nat) (hl : (run pkg sched initial).lock = none) :
    (∀ i, i ∈ inWork (run pkg sched initial).log ↔ (run pkg sched initial).at_ i = .body) ∧
    (inWork (run pkg sched initial).log).Nodup ∧
    (run pkg sched initial).shown = (if inWork (run pkg sched initial).log = [] then 0 else 1) ∧
    (inWork (run pkg sched initial).log = [] → (run pkg sched initial).visible = none) ∧
    (inWork (run pkg sched initial).log ≠ [] → ∃ ps : List Pack,
      ps.Perm ((inWork (run pkg sched initial).log).map pkg) ∧
      (run pkg sched initial).visible = some (message ps)) := by
  have h := inv_run sched (inv_initial pkg)
  generalize run pkg sched initial = s at h hl ⊢
  have hc := h.calm (.inl hl)
  have hno : ∀ i, crit (s.at_ i) = false := fun i => by
    cases hci : crit (s.at_ i) with
    | false => rfl
    | true => have := (h.lock i).mp hci; rw [hl] at this; cases this
  have hnil : s.handled = [] ↔ inWork s.log = [] := by
    have hlen := h.perm.length_eq
    simp only [List.length_map] at hlen
    rw [← List.length_eq_zero_iff, ← List.length_eq_zero_iff, hlen]
  refine ⟨fun i => ?_, h.nodup, by simp only [hc.1, hnil], fun he => ?_, fun hne => ⟨s.handled, h.perm, ?_⟩⟩
  · rw [h.mem i]
    have := hno i
    cases hat : s.at_ i <;> simp [hat, busy, crit] at this ⊢
  · simp [State.visible, hc.1, hnil, he]
  · have : s.handled ≠ [] := fun e => hne (hnil.mp e)
    rw [State.visible, hc.1, if_neg this, hc.2 this, description_message]
    rfl

/-- **C107 (every schedule).** If no two operations have the same package, the message names the packages in the order in which their operations
began: the three oldest, and how many others there are. -/
theorem handling_oldest_partial (pkg : Nat → Pack) (sched : List Nat) (hinj : ∀ i j, pkg i = pkg j → i = j)
    (hl : (run pkg sched initial).lock = none) (hne : inWork (run pkg sched initial).log ≠ []) :
    (run pkg sched initial).visible = some (message ((inWork (run pkg sched initial).log).map pkg)) := by
  have h := inv_run sched (inv_initial pkg)
  have ho := order_run hinj sched (inv_initial pkg) (by simp [initial, inWork])
  generalize run pkg sched initial = s at h hl ho hne ⊢
  have hc := h.calm (.inl hl)
  have : s.handled ≠ [] := by rw [ho]; simpa using hne
  rw [State.visible, hc.1, if_neg this, hc.2 this, description_message, ho]
  rfl

/-- **C107 (every schedule).** The message is never on the display twice, and no operation fails because of it. -/
theorem handling_once (pkg : Nat → Pack) (sched : List Nat) :
    (run pkg sched initial).shown ≤ 1 ∧ ∀ i, (run pkg sched initial).at_ i ≠ .failed := by
  have h := inv_run sched (inv_initial pkg)
  generalize run pkg sched initial = s at h ⊢
  refine ⟨?_, h.fine⟩
  cases hl : s.lock with
  | none =>
    have := (h.calm (.inl hl)).1
    split at this <;> omega
  | some i =>
    have hc := (h.lock i).mpr hl
    cases hat : s.at_ i with
    | showing => have := (h.calm (.inr ⟨i, hl, .inl hat⟩)).1; split at this <;> omega
    | removing => have := (h.calm (.inr ⟨i, hl, .inr hat⟩)).1; split at this <;> omega
    | adding => have := h.busyShown i (.inl hat); omega
    | describing => have := h.busyShown i (.inr (.inl hat)); omega
    | finishing => have := h.busyShown i (.inr (.inr hat)); omega
    | _ => simp [hat, crit] at hc

/-- **C107 (every schedule).** Nobody waits for ever: the thread that changes the message is done after at most three more steps of its own. -/
theorem handling_never_blocks (pkg : Nat → Pack) (sched : List Nat) :
    ∃ i n, n ≤ 3 ∧ (run pkg (sched ++ List.replicate n i) initial).lock = none := by
  have run_append : ∀ (a b : List Nat) (s : State), run pkg (a ++ b) s = run pkg b (run pkg a s) := by
    intro a
    induction a with
    | nil => intro b s; rfl
    | cons x xs ih => intro b s; exact ih b _
  have h := inv_run sched (inv_initial pkg)
  have e : ∀ b, run pkg (sched ++ b) initial = run pkg b (run pkg sched initial) := fun b => run_append _ _ _
  simp only [e]
  generalize run pkg sched initial = s at h ⊢
  have hdesc : ∀ (s : State) i, s.at_ i = .describing → (step pkg i s).lock = none := by
    intro s i hat; simp [step, hat]
  have hadd : ∀ (s : State) i, s.at_ i = .adding → (step pkg i s).at_ i = .describing := by
    intro s i hat; simp [step, hat, State.go]
  have hshow : ∀ (s : State) i, s.at_ i = .showing → (step pkg i s).at_ i = .adding := by
    intro s i hat; simp only [step, hat]; split <;> simp [State.go]
  have hfin : ∀ (s : State) i, s.at_ i = .finishing → (step pkg i s).lock = none := by
    intro s i hat; simp only [step, hat]; split <;> rfl
  cases hl : s.lock with
  | none => exact ⟨0, 0, by omega, hl⟩
  | some i =>
    have hc := (h.lock i).mpr hl
    cases hat : s.at_ i with
    | showing => exact ⟨i, 3, by omega, hdesc _ _ (hadd _ _ (hshow _ _ hat))⟩
    | adding => exact ⟨i, 2, by omega, hdesc _ _ (hadd _ _ hat)⟩
    | describing => exact ⟨i, 1, by omega, hdesc _ _ hat⟩
    | finishing => exact ⟨i, 1, by omega, hfin _ _ hat⟩
    | removing =>
      refine ⟨i, 2, by omega, ?_⟩
      by_cases hp : pkg i ∈ s.handled
      · exact hfin _ _ (by simp [step, hat, hp, State.go])
      · have h1 : (step pkg i s).at_ i = .failed := by simp [step, hat, hp, State.go]
        have h2 : step pkg i (step pkg i s) = step pkg i s := by rw [step, h1]
        show (step pkg i (step pkg i s)).lock = none
        rw [h2]
        simp [step, hat, hp]
    | _ => simp [hat, crit] at hc

/-- **C107 (what a poor terminal is told).** Every line about an end names one package only, the one that was the last to end. -/
theorem handling_end_lines (pkg : Nat → Pack) (sched : List Nat) (t : Text)
    (h : Line.stop t ∈ (run pkg sched initial).out) : ∃ i, t = message [pkg i] := by
  obtain ⟨i, hi⟩ := (inv_run sched (inv_initial pkg)).stops t h
  exact ⟨i, by rw [hi, description_message]⟩

namespace HandlingExample

def packs : Nat → Pack
  | 0 => ⟨t!"a", t!"1"⟩
  | 1 => ⟨t!"b", t!"2"⟩
  | 2 => ⟨t!"c", t!"3"⟩
  | 3 => ⟨t!"d", t!"4"⟩
  | n + 4 => ⟨t!"e" ++ List.replicate n 'x', t!"5"⟩

/-- five operations begin, the second ends -/
def mixed : List Nat := [0, 1, 0, 0, 0, 1, 1, 1, 1, 2, 2, 2, 2, 3, 3, 3, 3, 4, 4, 4, 4, 1, 0, 1, 1]

example : (run packs mixed initial).lock = none := by decide
example : inWork (run packs mixed initial).log = [0, 2, 3, 4] := by decide
example : (run packs mixed initial).visible = some t!"Handling Packages: a 1,c 3,d 4 and 1 more..." := by decide
example : inWork (run packs (mixed ++ [0, 0, 0, 2, 2, 2, 3, 3, 3, 4, 4, 4]) initial).log = [] := by decide
example : (run packs (mixed ++ [0, 0, 0, 2, 2, 2, 3, 3, 3, 4, 4, 4]) initial).out =
    [.start [], .stop t!"Handling Packages: e 5"] := by decide

/-- two operations with the same package, which is not an injective assignment -/
def same : Nat → Pack
  | 0 => ⟨t!"a", t!"1"⟩
  | 1 => ⟨t!"b", t!"2"⟩
  | _ => ⟨t!"a", t!"1"⟩

end HandlingExample
open HandlingExample

/-- **C107 is violated (the start).** The spinner is shown before its text is set: a poor terminal is told of the start of nothing, and the next time of the
start of the package that ended last; in between a rich one shows the same. -/
theorem handling_stale_violated :
    (run packs [0, 0, 0, 0, 0, 0, 0, 1, 1] initial).out =
      [.start [], .stop t!"Handling Packages: a 1", .start t!"Handling Packages: a 1"] ∧
    (run packs [0, 0, 0, 0, 0, 0, 0, 1, 1] initial).visible = some t!"Handling Packages: a 1" ∧
    inWork (run packs [0, 0, 0, 0, 0, 0, 0, 1, 1] initial).log = [] := by decide

/-- **C107 is violated (the order).** With two operations for the same package, the end of the younger takes the place of the older. -/
theorem handling_oldest_violated :
    (run same [0, 0, 0, 0, 1, 1, 1, 1, 2, 2, 2, 2, 2, 2, 2] initial).visible = some t!"Handling Packages: b 2,a 1" ∧
    inWork (run same [0, 0, 0, 0, 1, 1, 1, 1, 2, 2, 2, 2, 2, 2, 2] initial).log = [0, 1] := by decide

end Pkm
