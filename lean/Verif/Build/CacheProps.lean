import Verif.Build.Cache
set_option linter.unusedSimpArgs false
set_option linter.unusedVariables false
set_option linter.unusedSectionVars false
/-
C99: what the cache of built sources gives, with one user at a time, with several, and after users were killed.
-/
namespace Pkm
namespace Spec
open BuildCache
variable {B H : Type} [DecidableEq B] [DecidableEq H]

/-- Files are in directories. -/
structure CacheTree (d : Disk B H) : Prop where
  dir : ∀ k, d.dir k = true → d.bdir k.base = true
  md : ∀ k f, d.md k = some f → d.dir k = true
  wheel : ∀ k f, d.wheel k = some f → d.dir k = true

/-- Every file was written to its end, from the archive that its directory is for. -/
structure CacheSound (d : Disk B H) : Prop where
  md : ∀ k f, d.md k = some f → read f = (k.hash, true)
  wheel : ∀ k f, d.wheel k = some f → read f = (k.hash, true)

/-- A use of the cache: the directory, what is asked for, what a build gives. -/
structure CacheUse (B H : Type) where
  key : Key B H
  kind : Kind
  gives : Option Kind

/-- The build of a wheel does not give METADATA alone. -/
def CacheUse.Sensible (c : CacheUse B H) : Prop := c.kind = .wheel → c.gives ≠ some .metadata

/-- What a build gives the one who asked: an exception if it fails, otherwise what was asked for, whole and from the right archive; but
a path if METADATA was asked for and a wheel had to be built. -/
def cacheBuilt (c : CacheUse B H) : Result H :=
  match c.gives, c.kind with
  | none, _ => .failed
  | some .metadata, _ => .metadata (some (c.key.hash, true))
  | some .wheel, .metadata => .path
  | some .wheel, .wheel => .wheel (c.key.hash, true)

/-- Uses one after the other. -/
def cacheAfter (d : Disk B H) (cs : List (CacheUse B H)) : Disk B H :=
  cs.foldl (fun d c => (call d c.key c.kind c.gives).1) d

/-- Users who have not begun. -/
def Waiting (us : List (User B H)) : Prop := ∀ u ∈ us, u.pos = .check ∧ u.built = false

/-- What has happened after some events. -/
def cacheRun (s : Many B H) (es : List Event) : Many B H := es.foldl happen s

end Spec
open Spec
namespace BuildCache
variable {B H : Type} [DecidableEq B] [DecidableEq H]

theorem empty_tree : CacheTree (empty : Disk B H) :=
  ⟨fun k h => by simp [empty] at h, fun k f h => by simp [empty] at h, fun k f h => by simp [empty] at h⟩

theorem empty_sound : CacheSound (empty : Disk B H) :=
  ⟨fun k f h => by simp [empty] at h, fun k f h => by simp [empty] at h⟩

/-- C99: with nobody else about, what is in the cache is given without a build, and the cache stays as it is. -/
theorem cache_hit (d : Disk B H) (k : Key B H) (gives : Option Kind) (f : File H) (hf : d.md k = some f) :
    call d k .metadata gives = (d, false, some (.metadata (some (read f)))) ∧
    ∀ w, d.wheel k = some w → call d k .wheel gives = (d, false, some (.wheel (read w))) := by
  constructor
  · simp [call, alone, act, hf, User.result]
  · intro w hw
    simp [call, alone, act, hf, hw, User.result]

/-- From the build on. -/
theorem from_build (d : Disk B H) (k : Key B H) (kind : Kind) (gives : Option Kind) (n : Nat)
    (hs : kind = .wheel → gives ≠ some .metadata) (hm : d.md k = none) (hw : d.wheel k = none) :
    (alone d ⟨k, kind, gives, false, .build⟩ (n + 9)).2.built = true ∧
    (alone d ⟨k, kind, gives, false, .build⟩ (n + 9)).2.result = some (cacheBuilt ⟨k, kind, gives⟩) ∧
    (∀ k', ((alone d ⟨k, kind, gives, false, .build⟩ (n + 9)).1.md k').map read =
      if k' = k ∧ gives ≠ none then some (k.hash, true) else (d.md k').map read) ∧
    (∀ k', ((alone d ⟨k, kind, gives, false, .build⟩ (n + 9)).1.wheel k').map read =
      if k' = k ∧ gives = some .wheel then some (k.hash, true) else (d.wheel k').map read) := by
  rcases gives with _ | g
  · simp [alone, act, User.result, cacheBuilt]
  · cases g <;> cases kind
    · simp only [alone, act, mkdirs, upd, if_true, hm, opened, written, Option.map]
      refine ⟨by trivial, rfl, fun k' => ?_, fun k' => ?_⟩
      · by_cases hk : k' = k <;> simp [hk, read]
      · by_cases hk : k' = k <;> simp [hk, read]
    · exact absurd rfl (hs rfl)
    · simp only [alone, act, mkdirs, upd, if_true, hm, hw, opened, written, Option.map]
      refine ⟨by trivial, rfl, fun k' => ?_, fun k' => ?_⟩
      · by_cases hk : k' = k <;> simp [hk, read]
      · by_cases hk : k' = k <;> simp [hk, read]
    · have hne : (Kind.wheel = Kind.metadata) = False := by simp
      simp only [alone, act, mkdirs, upd, if_true, hm, hw, opened, written, Option.map, hne, if_false]
      refine ⟨by trivial, rfl, fun k' => ?_, fun k' => ?_⟩
      · by_cases hk : k' = k <;> simp [hk, read]
      · by_cases hk : k' = k <;> simp [hk, read]

/-- C99: with nobody else about, and without what is asked for in the cache, there is a build. All that the cache has for this
package, version and environment is thrown away, also what was built from other archives. What was built is stored whole, and given. Everything
else in the cache stays. -/
theorem cache_miss (d : Disk B H) (c : CacheUse B H) (ht : CacheTree d) (hs : c.Sensible)
    (hm : d.md c.key = none ∨ (c.kind = .wheel ∧ d.wheel c.key = none)) :
    (call d c.key c.kind c.gives).2.1 = true ∧
    (call d c.key c.kind c.gives).2.2 = some (cacheBuilt c) ∧
    (∀ k, ((call d c.key c.kind c.gives).1.md k).map read =
      if k = c.key ∧ c.gives ≠ none then some (c.key.hash, true) else if k.base = c.key.base then none else (d.md k).map read) ∧
    (∀ k, ((call d c.key c.kind c.gives).1.wheel k).map read =
      if k = c.key ∧ c.gives = some .wheel then some (c.key.hash, true)
      else if k.base = c.key.base then none else (d.wheel k).map read) := by
  obtain ⟨k, kind, gives⟩ := c
  have hnone : d.bdir k.base = false → ∀ k', k'.base = k.base → d.md k' = none ∧ d.wheel k' = none := by
    intro hb k' hk
    have hd : d.dir k' = false := by
      cases h : d.dir k' with
      | false => rfl
      | true => have := ht.dir k' h; rw [hk, hb] at this; exact absurd this (by decide)
    constructor
    · cases h : d.md k' with
      | none => rfl
      | some f => rw [ht.md k' f h] at hd; exact absurd hd (by decide)
    · cases h : d.wheel k' with
      | none => rfl
      | some f => rw [ht.wheel k' f h] at hd; exact absurd hd (by decide)
  -- the disk at the build
  have hstart : ∃ d' n, alone d ⟨k, kind, gives, false, .check⟩ 16 = alone d' ⟨k, kind, gives, false, .build⟩ (n + 9) ∧
      (∀ k', d'.md k' = if k'.base = k.base then none else d.md k') ∧
      (∀ k', d'.wheel k' = if k'.base = k.base then none else d.wheel k') := by
    have hclear : ∀ m, ∃ d' n, alone d ⟨k, kind, gives, false, .clear⟩ (m + 11) = alone d' ⟨k, kind, gives, false, .build⟩ (n + 9) ∧
        (∀ k', d'.md k' = if k'.base = k.base then none else d.md k') ∧
        (∀ k', d'.wheel k' = if k'.base = k.base then none else d.wheel k') := by
      intro m
      cases hb : d.bdir k.base with
      | false =>
        refine ⟨d, m + 1, by rw [alone]; simp [act, hb], fun k' => ?_, fun k' => ?_⟩
        · split
          · exact (hnone hb k' ‹_›).1
          · rfl
        · split
          · exact (hnone hb k' ‹_›).2
          · rfl
      | true =>
        exact ⟨rmtree d k.base, m, by rw [alone, alone]; simp [act, hb], fun k' => rfl, fun k' => rfl⟩
    simp only at hm
    cases hmd : d.md k with
    | none =>
      obtain ⟨d', n, h1, h2⟩ := hclear 4
      exact ⟨d', n, by rw [← h1]; rw [alone]; simp [act, hmd], h2⟩
    | some f =>
      rw [hmd] at hm
      obtain ⟨hk, hw⟩ := hm.resolve_left (by simp)
      subst hk
      obtain ⟨d', n, h1, h2⟩ := hclear 3
      exact ⟨d', n, by rw [← h1]; rw [alone, alone]; simp [act, hmd, hw], h2⟩
  obtain ⟨d', n, h1, hmd, hwh⟩ := hstart
  have h := from_build d' k kind gives n hs (by simp [hmd]) (by simp [hwh])
  simp only [call, h1]
  refine ⟨h.1, h.2.1, fun k' => ?_, fun k' => ?_⟩
  · rw [h.2.2.1, hmd]
    by_cases hk : k' = k ∧ gives ≠ none
    · simp [hk]
    · simp only [hk, if_false]
      by_cases hb : k'.base = k.base <;> simp [hb]
  · rw [h.2.2.2, hwh]
    by_cases hk : k' = k ∧ gives = some .wheel
    · simp [hk]
    · simp only [hk, if_false]
      by_cases hb : k'.base = k.base <;> simp [hb]


/-! ### Directories -/

theorem mkdirs_tree {d : Disk B H} (h : CacheTree d) (k : Key B H) : CacheTree (mkdirs d k) := by
  refine ⟨fun k' => ?_, fun k' f hf => ?_, fun k' f hf => ?_⟩
  · simp only [mkdirs, upd]
    intro hd
    by_cases hb : k'.base = k.base
    · simp [hb]
    · have hk : k' ≠ k := fun e => hb (by rw [e])
      simp only [hk, hb, if_false] at hd ⊢
      exact h.dir k' hd
  · have := h.md k' f hf
    simp only [mkdirs, upd]
    split <;> simp [this]
  · have := h.wheel k' f hf
    simp only [mkdirs, upd]
    split <;> simp [this]

theorem rmtree_tree {d : Disk B H} (h : CacheTree d) (b : B) : CacheTree (rmtree d b) := by
  refine ⟨fun k' => ?_, fun k' f => ?_, fun k' f => ?_⟩ <;> simp only [rmtree] <;> by_cases hb : k'.base = b <;> simp [hb]
  · exact h.dir k'
  · exact h.md k' f
  · exact h.wheel k' f

theorem setMd_tree {d : Disk B H} (h : CacheTree d) (k : Key B H) (v : Option (File H)) (n : Key B H → Nat)
    (hd : v ≠ none → d.dir k = true) : CacheTree { d with md := upd d.md k v, next := n } := by
  refine ⟨h.dir, fun k' f hf => ?_, h.wheel⟩
  simp only [upd] at hf
  split at hf
  · subst_vars; exact hd (by simp)
  · exact h.md k' f hf

theorem setWheel_tree {d : Disk B H} (h : CacheTree d) (k : Key B H) (v : Option (File H)) (n : Key B H → Nat)
    (hd : v ≠ none → d.dir k = true) : CacheTree { d with wheel := upd d.wheel k v, next := n } := by
  refine ⟨h.dir, h.md, fun k' f hf => ?_⟩
  simp only [upd] at hf
  split at hf
  · subst_vars; exact hd (by simp)
  · exact h.wheel k' f hf

theorem written_ne {id : Nat} {v : Option (File H)} (h : written id v ≠ none) : ∃ f, v = some f := by
  cases v with
  | none => simp [written] at h
  | some f => exact ⟨f, rfl⟩

theorem act_tree {d : Disk B H} (h : CacheTree d) (u : User B H) : CacheTree (act d u).1 := by
  unfold act
  split
  · split <;> exact h
  · exact h
  · split <;> exact h
  · exact h
  · split
    · exact rmtree_tree h _
    · exact h
  · split <;> exact h
  · exact mkdirs_tree h _
  · split
    · exact setMd_tree h _ _ _ (fun _ => ‹_›)
    · exact h
  · exact setMd_tree h _ _ _ (fun hn => by obtain ⟨f, hf⟩ := written_ne hn; exact h.md _ f hf)
  · split
    · exact h
    · exact mkdirs_tree h _
  · split
    · exact setMd_tree h _ _ _ (fun _ => ‹_›)
    · exact h
  · exact setMd_tree h _ _ _ (fun hn => by obtain ⟨f, hf⟩ := written_ne hn; exact h.md _ f hf)
  · exact mkdirs_tree h _
  · split
    · exact setWheel_tree h _ _ _ (fun _ => ‹_›)
    · exact h
  · exact setWheel_tree h _ _ _ (fun hn => by obtain ⟨f, hf⟩ := written_ne hn; exact h.wheel _ f hf)
  · split <;> exact h
  · exact h

theorem alone_tree (n : Nat) : ∀ {d : Disk B H} (h : CacheTree d) (u : User B H), CacheTree (alone d u n).1 := by
  induction n with
  | zero => intro d h u; exact h
  | succ n ih =>
    intro d h u
    rw [alone]
    split
    · exact h
    · exact ih (act_tree h u) _

theorem call_tree {d : Disk B H} (h : CacheTree d) (k : Key B H) (kind : Kind) (gives : Option Kind) :
    CacheTree (call d k kind gives).1 := alone_tree _ h _

/-- Either there is a hit or a miss. -/
theorem hit_or_miss (d : Disk B H) (c : CacheUse B H) :
    (∃ f, d.md c.key = some f ∧ (c.kind = .metadata ∨ ∃ w, d.wheel c.key = some w)) ∨
    (d.md c.key = none ∨ (c.kind = .wheel ∧ d.wheel c.key = none)) := by
  cases hm : d.md c.key with
  | none => exact Or.inr (Or.inl rfl)
  | some f =>
    cases hk : c.kind with
    | metadata => exact Or.inl ⟨f, rfl, Or.inl rfl⟩
    | wheel =>
      cases hw : d.wheel c.key with
      | none => exact Or.inr (Or.inr ⟨rfl, rfl⟩)
      | some w => exact Or.inl ⟨f, rfl, Or.inr ⟨w, rfl⟩⟩

theorem sound_iff {d : Disk B H} : CacheSound d ↔
    (∀ k v, (d.md k).map read = some v → v = (k.hash, true)) ∧ (∀ k v, (d.wheel k).map read = some v → v = (k.hash, true)) := by
  constructor
  · intro h
    refine ⟨fun k v hv => ?_, fun k v hv => ?_⟩
    · obtain ⟨f, hf, rfl⟩ := Option.map_eq_some_iff.1 hv; exact h.md k f hf
    · obtain ⟨f, hf, rfl⟩ := Option.map_eq_some_iff.1 hv; exact h.wheel k f hf
  · intro h
    exact ⟨fun k f hf => h.1 k _ (by rw [hf]; rfl), fun k f hf => h.2 k _ (by rw [hf]; rfl)⟩

theorem call_sound {d : Disk B H} (ht : CacheTree d) (hd : CacheSound d) (c : CacheUse B H) (hs : c.Sensible) :
    CacheSound (call d c.key c.kind c.gives).1 := by
  rcases hit_or_miss d c with ⟨f, hf, hk⟩ | hm
  · have h := cache_hit d c.key c.gives f hf
    cases hkind : c.kind with
    | metadata => rw [h.1]; exact hd
    | wheel =>
      rw [hkind] at hk
      obtain ⟨w, hw⟩ := hk.resolve_left (by simp)
      rw [h.2 w hw]; exact hd
  · have h := cache_miss d c ht hs hm
    rw [sound_iff] at hd ⊢
    refine ⟨fun k v hv => ?_, fun k v hv => ?_⟩
    · rw [h.2.2.1] at hv
      split at hv
      · rename_i hc; simp only [Option.some.injEq] at hv; rw [← hv, hc.1]
      · split at hv
        · simp at hv
        · exact hd.1 k v hv
    · rw [h.2.2.2] at hv
      split at hv
      · rename_i hc; simp only [Option.some.injEq] at hv; rw [← hv, hc.1]
      · split at hv
        · simp at hv
        · exact hd.2 k v hv

theorem after_good {d : Disk B H} (ht : CacheTree d) (hd : CacheSound d) (cs : List (CacheUse B H)) (hs : ∀ c ∈ cs, c.Sensible) :
    CacheTree (cacheAfter d cs) ∧ CacheSound (cacheAfter d cs) := by
  induction cs generalizing d with
  | nil => exact ⟨ht, hd⟩
  | cons c cs ih =>
    exact ih (call_tree ht _ _ _) (call_sound ht hd c (hs c (by simp))) (fun c' h' => hs c' (by simp [h']))

/-- C99: whatever uses came before, one after the other, the next use gives what was asked for, whole and from the right archive, or
what its own build gives. -/
theorem cache_sequence (cs : List (CacheUse B H)) (hs : ∀ c ∈ cs, c.Sensible) (c : CacheUse B H) (hc : c.Sensible) :
    let r := call (cacheAfter empty cs) c.key c.kind c.gives
    CacheSound r.1 ∧
    ((r.2.1 = false ∧ r.2.2 = some (match c.kind with
        | .metadata => .metadata (some (c.key.hash, true))
        | .wheel => .wheel (c.key.hash, true))) ∨
      (r.2.1 = true ∧ r.2.2 = some (cacheBuilt c))) := by
  obtain ⟨ht, hd⟩ := after_good (empty_tree (B := B) (H := H)) empty_sound cs hs
  refine ⟨call_sound ht hd c hc, ?_⟩
  rcases hit_or_miss (cacheAfter empty cs) c with ⟨f, hf, hk⟩ | hm
  · have h := cache_hit _ c.key c.gives f hf
    refine Or.inl ?_
    cases hkind : c.kind with
    | metadata => rw [h.1, hd.md _ _ hf]; exact ⟨rfl, rfl⟩
    | wheel =>
      rw [hkind] at hk
      obtain ⟨w, hw⟩ := hk.resolve_left (by simp)
      rw [h.2 w hw, hd.wheel _ _ hw]; exact ⟨rfl, rfl⟩
  · have h := cache_miss _ c ht hc hm
    exact Or.inr ⟨h.1, h.2.1⟩

/-- C99: once a wheel was built, uses of the same archive, in between uses for other packages, versions or environments, do not build again. -/
theorem cache_builds_once (d : Disk B H) (ht : CacheTree d) (hd : CacheSound d) (k : Key B H) (gives : Option Kind)
    (hw : (call d k .wheel gives).2.2 = some (.wheel (k.hash, true)))
    (cs : List (CacheUse B H)) (hs : ∀ c ∈ cs, c.Sensible) (hcs : ∀ c ∈ cs, c.key = k ∨ c.key.base ≠ k.base)
    (kind : Kind) (gives' : Option Kind) :
    (call (cacheAfter (call d k .wheel gives).1 cs) k kind gives').2 = (false, some (match kind with
        | .metadata => .metadata (some (k.hash, true))
        | .wheel => .wheel (k.hash, true))) := by
  have key : ∀ (cs : List (CacheUse B H)) (d : Disk B H), CacheTree d → CacheSound d → (∀ c ∈ cs, c.Sensible) →
      (∀ c ∈ cs, c.key = k ∨ c.key.base ≠ k.base) → (∃ f w, d.md k = some f ∧ d.wheel k = some w) →
      (∃ f w, (cacheAfter d cs).md k = some f ∧ (cacheAfter d cs).wheel k = some w) := by
    intro cs
    induction cs with
    | nil => intro d _ _ _ _ h; exact h
    | cons c cs ih =>
      intro d ht hd hs hcs ⟨f, w, hf, hw⟩
      refine ih _ (call_tree ht c.key c.kind c.gives) (call_sound ht hd c (hs c (by simp))) (fun c' h' => hs c' (by simp [h']))
        (fun c' h' => hcs c' (by simp [h'])) ?_
      show ∃ f w, (call d c.key c.kind c.gives).1.md k = some f ∧ (call d c.key c.kind c.gives).1.wheel k = some w
      rcases hit_or_miss d c with ⟨f', hf', hk⟩ | hm
      · have h := cache_hit d c.key c.gives f' hf'
        cases hkind : c.kind with
        | metadata => rw [h.1]; exact ⟨f, w, hf, hw⟩
        | wheel =>
          rw [hkind] at hk
          obtain ⟨w', hw'⟩ := hk.resolve_left (by simp)
          rw [h.2 w' hw']; exact ⟨f, w, hf, hw⟩
      · have h := cache_miss d c ht (hs c (by simp)) hm
        rcases hcs c (by simp) with hck | hcb
        · rw [hck, hf, hw] at hm; simp at hm
        · have hne : k ≠ c.key := fun e => hcb (by rw [e])
          have hbb : k.base ≠ c.key.base := fun e => hcb e.symm
          have h1 := h.2.2.1 k
          have h2 := h.2.2.2 k
          simp only [hne, hbb, false_and, if_false, hf, hw, Option.map_some] at h1 h2
          obtain ⟨a, ha, _⟩ := Option.map_eq_some_iff.1 h1
          obtain ⟨b, hb, _⟩ := Option.map_eq_some_iff.1 h2
          exact ⟨a, b, ha, hb⟩
  have hone : CacheTree (call d k .wheel gives).1 ∧ CacheSound (call d k .wheel gives).1 ∧
      ∃ f w, (call d k .wheel gives).1.md k = some f ∧ (call d k .wheel gives).1.wheel k = some w := by
    refine ⟨call_tree ht _ _ _, ?_⟩
    rcases hit_or_miss d ⟨k, .wheel, gives⟩ with ⟨f, hf, hk⟩ | hm
    · obtain ⟨w, hw'⟩ := hk.resolve_left (by simp)
      rw [(cache_hit d k gives f hf).2 w hw']
      exact ⟨hd, f, w, hf, hw'⟩
    · by_cases hg : gives = some .metadata
      · exfalso
        subst hg
        have hmm : d.md k = none ∨ d.wheel k = none := by
          rcases hm with h | h
          · exact Or.inl h
          · exact Or.inr h.2
        revert hw
        cases hmd : d.md k <;> cases hwh : d.wheel k <;> cases hb : d.bdir k.base <;>
          simp [call, alone, act, hmd, hwh, hb, User.result, mkdirs, upd, rmtree]
        all_goals simp [hmd, hwh] at hmm
      · have hsens : CacheUse.Sensible ⟨k, .wheel, gives⟩ := fun _ => hg
        have h := cache_miss d ⟨k, .wheel, gives⟩ ht hsens hm
        refine ⟨call_sound ht hd ⟨k, .wheel, gives⟩ hsens, ?_⟩
        have h1 := h.2.1
        rw [hw] at h1
        have hgw : gives = some .wheel := by
          rcases gives with _ | g
          · simp [cacheBuilt] at h1
          · cases g
            · exact absurd rfl hg
            · rfl
        have h2 := h.2.2.1 k
        have h3 := h.2.2.2 k
        simp only [hgw, and_true, if_true, ne_eq, not_false_eq_true, reduceCtorEq] at h2 h3
        rw [hgw]
        obtain ⟨a, ha, _⟩ := Option.map_eq_some_iff.1 h2
        obtain ⟨b, hb, _⟩ := Option.map_eq_some_iff.1 h3
        exact ⟨a, b, ha, hb⟩
  obtain ⟨ht1, hd1, hex⟩ := hone
  obtain ⟨f, w, hf, hw2⟩ := key cs _ ht1 hd1 hs hcs hex
  obtain ⟨_, hsnd⟩ := after_good ht1 hd1 cs hs
  have h := cache_hit (cacheAfter (call d k .wheel gives).1 cs) k gives' f hf
  cases kind with
  | metadata => rw [h.1, hsnd.md _ _ hf]
  | wheel => rw [h.2 w hw2, hsnd.wheel _ _ hw2]

end BuildCache
end Pkm
