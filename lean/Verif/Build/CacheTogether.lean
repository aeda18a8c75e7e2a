import Verif.Build.CacheApart
set_option linter.unusedSimpArgs false
set_option linter.unusedVariables false
set_option linter.unusedSectionVars false
/-
C99: users for the same package that have all removed what was there before, and build at once.
-/
namespace Pkm
open Spec
namespace BuildCache
variable {B H : Type} [DecidableEq B] [DecidableEq H]

/-- What is known of a user that was at its build. -/
def Fine (d : Disk B H) (u : User B H) : Prop :=
  match u.pos with
  | .check | .load | .glob | .clear | .remove => False
  | .build => True
  | .mkMeta | .writeMeta _ => u.gives = some .metadata
  | .openMeta => u.gives = some .metadata ∧ d.dir u.key = true
  | .saveCheck | .saveWrite _ | .mkWheel => u.gives = some .wheel
  | .saveOpen | .moveOpen => u.gives = some .wheel ∧ d.dir u.key = true
  | .moveWrite _ => u.gives = some .wheel ∧ (d.wheel u.key).isSome
  | .use => u.gives = some .wheel ∧ u.kind = .wheel ∧ (d.wheel u.key).isSome
  | .done r => (u.gives = none ∧ r = .failed) ∨ (u.gives = some .metadata ∧ r = .metadata (some (u.key.hash, true))) ∨
      (u.gives = some .wheel ∧ (d.wheel u.key).isSome ∧ (u.kind = .metadata → r = .path) ∧ (u.kind = .wheel → ∃ v, r = .wheel v))

/-- Nothing is removed. -/
structure Kept (d d' : Disk B H) : Prop where
  dir : ∀ k, d.dir k = true → d'.dir k = true
  wheel : ∀ k, (d.wheel k).isSome → (d'.wheel k).isSome

theorem Kept.fine {d d' : Disk B H} (h : Kept d d') {u : User B H} (hu : Fine d u) : Fine d' u := by
  unfold Fine at hu ⊢
  split at hu <;> simp_all
  · exact h.dir _ hu.2
  · exact h.dir _ hu.2
  · exact h.dir _ hu.2
  · exact h.wheel _ hu.2
  · exact h.wheel _ hu.2.2
  · rcases hu with hu | hu | hu
    · exact Or.inl hu
    · exact Or.inr (Or.inl hu)
    · exact Or.inr (Or.inr ⟨hu.1, h.wheel _ hu.2.1, hu.2.2⟩)

theorem Kept.same (d : Disk B H) : Kept d d := ⟨fun _ h => h, fun _ h => h⟩

theorem Kept.mkdirs (d : Disk B H) (k : Key B H) : Kept d (mkdirs d k) :=
  ⟨fun k' h => by simp only [BuildCache.mkdirs, upd]; split <;> simp [h], fun _ h => h⟩

theorem written_some (id : Nat) (v : Option (File H)) : (written id v).isSome = v.isSome := by cases v <;> rfl

theorem act_kept {d : Disk B H} {u : User B H} (hu : Fine d u) : Kept d (act d u).1 ∧ Fine (act d u).1 (act d u).2 := by
  obtain ⟨k, kind, gives, built, pos⟩ := u
  cases pos with
  | check | load | glob | clear | remove => exact absurd hu (by simp [Fine])
  | build =>
    cases gives with
    | none => exact ⟨Kept.same d, by simp [act, Fine]⟩
    | some g => cases g <;> exact ⟨Kept.same d, by simp [act, Fine]⟩
  | mkMeta => exact ⟨Kept.mkdirs d k, by simp [Fine] at hu; simp [act, Fine, hu, mkdirs, upd]⟩
  | openMeta =>
    simp only [Fine] at hu
    simp only [act, hu.2, if_true]
    exact ⟨⟨fun _ h => h, fun _ h => h⟩, by simp [Fine, hu]⟩
  | writeMeta id =>
    simp only [Fine] at hu
    exact ⟨⟨fun _ h => h, fun _ h => h⟩, by simp [act, Fine, hu]⟩
  | saveCheck =>
    simp only [Fine] at hu
    simp only [act]
    split
    · exact ⟨Kept.same d, by simp [Fine, hu]⟩
    · exact ⟨Kept.mkdirs d k, by simp [Fine, hu, mkdirs, upd]⟩
  | saveOpen =>
    simp only [Fine] at hu
    simp only [act, hu.2, if_true]
    exact ⟨⟨fun _ h => h, fun _ h => h⟩, by simp [Fine, hu]⟩
  | saveWrite id =>
    simp only [Fine] at hu
    exact ⟨⟨fun _ h => h, fun _ h => h⟩, by simp [act, Fine, hu]⟩
  | mkWheel =>
    simp only [Fine] at hu
    exact ⟨Kept.mkdirs d k, by simp [act, Fine, hu, mkdirs, upd]⟩
  | moveOpen =>
    simp only [Fine] at hu
    simp only [act, hu.2, if_true]
    refine ⟨⟨fun _ h => h, fun k' h => ?_⟩, by simp [Fine, hu, upd]⟩
    simp only [upd]
    split
    · rfl
    · exact h
  | moveWrite id =>
    simp only [Fine] at hu
    simp only [act]
    have hk : ∀ k', (upd d.wheel k (written id (d.wheel k)) k').isSome = (d.wheel k').isSome := by
      intro k'; simp only [upd]; split
      · rename_i e; rw [written_some, e]
      · rfl
    refine ⟨⟨fun _ h => h, fun k' h => by rw [hk]; exact h⟩, ?_⟩
    cases kind <;> simp [Fine, hu, hk]
  | use =>
    simp only [Fine] at hu
    simp only [act]
    obtain ⟨h1, h2, h3⟩ := hu
    obtain ⟨f, hf⟩ := Option.isSome_iff_exists.1 h3
    simp only [hf]
    exact ⟨Kept.same d, by simp [Fine, h1, h2, hf]⟩
  | done r => exact ⟨Kept.same d, hu⟩

theorem fine_happen {s : Many B H} (h : ∀ u ∈ s.users, Fine s.disk u) (i : Nat) :
    ∀ u ∈ (happen s (.step i)).users, Fine (happen s (.step i)).disk u := by
  simp only [happen]
  split
  · rename_i u hu
    have hk := act_kept (h u (List.mem_of_getElem? hu))
    intro v hv
    rcases List.mem_or_eq_of_mem_set hv with hv | rfl
    · exact hk.1.fine (h v hv)
    · exact hk.2
  · exact h

theorem fine_run {s : Many B H} (h : ∀ u ∈ s.users, Fine s.disk u) (is : List Nat) :
    ∀ u ∈ (cacheRun s (is.map .step)).users, Fine (cacheRun s (is.map .step)).disk u := by
  induction is generalizing s with
  | nil => exact h
  | cons i is ih => exact ih (fine_happen h i)

/-- C99: users that build at once, in any order, after each has removed what was there: whoever ends has got METADATA whole, or a wheel, or a path to
one; with an exception only if its build failed. Every wheel that was built is in the cache. -/
theorem cache_build_together (d : Disk B H) (us : List (User B H)) (hus : ∀ u ∈ us, u.pos = .build) (is : List Nat) :
    let s := cacheRun ⟨d, us⟩ (is.map .step)
    ∀ u ∈ s.users, ∀ r, u.result = some r →
      (u.gives = none → r = .failed) ∧
      (u.gives = some .metadata → r = .metadata (some (u.key.hash, true))) ∧
      (u.gives = some .wheel → (u.kind = .metadata → r = .path) ∧ (u.kind = .wheel → ∃ v, r = .wheel v) ∧ (s.disk.wheel u.key).isSome) := by
  intro s u hu r hr
  have h : Fine s.disk u := fine_run (fun v hv => by simp [Fine, hus v hv]) is u hu
  unfold User.result at hr
  split at hr
  · rename_i r' hp
    simp only [Option.some.injEq] at hr; subst hr
    simp only [Fine, hp] at h
    rcases h with ⟨h1, h2⟩ | ⟨h1, h2⟩ | ⟨h1, h2, h3, h4⟩
    · simp [h1, h2]
    · simp [h1, h2]
    · exact ⟨fun e => by simp [h1] at e, fun e => by simp [h1] at e, fun _ => ⟨h3, h4, h2⟩⟩
  · cases hr

/-- Two that found nothing: both are at their build after two steps; then they end, whatever the order. -/
example : ((cacheRun ⟨empty, [asks first .wheel, asks first .wheel]⟩ ([0, 1, 0, 1].map .step)).users.map (·.pos) = [.build, .build]) ∧
    ends [asks first .wheel, asks first .wheel] ((List.replicate 12 [0, 1]).flatten) = [some (.wheel (1, true)), some (.wheel (1, true))] := by
  decide

end BuildCache
end Pkm
