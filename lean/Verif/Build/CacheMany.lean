import Verif.Build.CacheProps
set_option linter.unusedSimpArgs false
set_option linter.unusedVariables false
set_option linter.unusedSectionVars false
/-
C99: several users of the cache of built sources at once, and users that are killed.
-/
namespace Pkm
namespace Spec
open BuildCache
variable {B H : Type} [DecidableEq B] [DecidableEq H]

/-- What a user got is from the archive asked for. -/
def RightArchive (h : H) : Result H → Prop
  | .metadata (some v) => v.1 = h
  | .wheel v => v.1 = h
  | _ => True

/-- A user has opened a file and not yet written it. -/
def MidWrite : At H → Prop
  | .writeMeta _ | .saveWrite _ | .moveWrite _ => True
  | _ => False

/-- Nobody is killed between opening a file and writing it. -/
def SafeKills (s : Many B H) : List Event → Prop
  | [] => True
  | e :: es => (∀ (i : Nat) (u : User B H), e = .kill i → s.users[i]? = some u → ¬ MidWrite u.pos) ∧ SafeKills (happen s e) es

/-- How often a user makes a step. -/
def stepsOf (i : Nat) (es : List Event) : Nat := es.countP (· = .step i)

end Spec
open Spec
namespace BuildCache
variable {B H : Type} [DecidableEq B] [DecidableEq H]

/-! ### What is in the files -/

structure Inv (s : Many B H) : Prop where
  md : ∀ k f, s.disk.md k = some f → f.of = k.hash
  wheel : ∀ k f, s.disk.wheel k = some f → f.of = k.hash
  res : ∀ (u : User B H) r, u ∈ s.users → u.pos = .done r → RightArchive u.key.hash r

theorem written_of {id : Nat} {v : Option (File H)} {f : File H} (h : written id v = some f) : ∃ g, v = some g ∧ g.of = f.of := by
  cases v with
  | none => simp [written] at h
  | some g =>
    refine ⟨g, rfl, ?_⟩
    simp only [written, Option.map_some, Option.some.injEq] at h
    subst h
    split <;> rfl

theorem opened_of (k : Key B H) (c : Option (File H)) (n : Nat) : (opened k c n).1.of = k.hash := by
  cases c <;> rfl

theorem act_key (d : Disk B H) (u : User B H) : (act d u).2.key = u.key := by
  unfold act
  repeat' split
  all_goals rfl

theorem act_md {d : Disk B H} (h : ∀ k f, d.md k = some f → f.of = k.hash) (u : User B H) :
    ∀ k f, (act d u).1.md k = some f → f.of = k.hash := by
  have hw : ∀ id k f, upd d.md u.key (written id (d.md u.key)) k = some f → f.of = k.hash := by
    intro id k f hf
    simp only [upd] at hf
    split at hf
    · rename_i e; obtain ⟨g, hg, hgf⟩ := written_of hf; rw [← hgf, e]; exact h _ g hg
    · exact h k f hf
  have ho : ∀ k f, upd d.md u.key (some (opened u.key (d.md u.key) (d.next u.key)).1) k = some f → f.of = k.hash := by
    intro k f hf
    simp only [upd] at hf
    split at hf
    · rename_i e; simp only [Option.some.injEq] at hf; rw [← hf, opened_of, e]
    · exact h k f hf
  unfold act
  split
  · split <;> exact h
  · exact h
  · split <;> exact h
  · exact h
  · split
    · intro k f hf; simp only [rmtree] at hf; split at hf
      · simp at hf
      · exact h k f hf
    · exact h
  · split <;> exact h
  · exact h
  · split
    · exact ho
    · exact h
  · exact hw _
  · split <;> exact h
  · split
    · exact ho
    · exact h
  · exact hw _
  · exact h
  · split <;> exact h
  · exact h
  · split <;> exact h
  · exact h

theorem act_wheel {d : Disk B H} (h : ∀ k f, d.wheel k = some f → f.of = k.hash) (u : User B H) :
    ∀ k f, (act d u).1.wheel k = some f → f.of = k.hash := by
  have hw : ∀ id k f, upd d.wheel u.key (written id (d.wheel u.key)) k = some f → f.of = k.hash := by
    intro id k f hf
    simp only [upd] at hf
    split at hf
    · rename_i e; obtain ⟨g, hg, hgf⟩ := written_of hf; rw [← hgf, e]; exact h _ g hg
    · exact h k f hf
  have ho : ∀ k f, upd d.wheel u.key (some (opened u.key (d.wheel u.key) (d.next u.key)).1) k = some f → f.of = k.hash := by
    intro k f hf
    simp only [upd] at hf
    split at hf
    · rename_i e; simp only [Option.some.injEq] at hf; rw [← hf, opened_of, e]
    · exact h k f hf
  unfold act
  split
  · split <;> exact h
  · exact h
  · split <;> exact h
  · exact h
  · split
    · intro k f hf; simp only [rmtree] at hf; split at hf
      · simp at hf
      · exact h k f hf
    · exact h
  · split <;> exact h
  · exact h
  · split <;> exact h
  · exact h
  · split <;> exact h
  · split <;> exact h
  · exact h
  · exact h
  · split
    · exact ho
    · exact h
  · exact hw _
  · split <;> exact h
  · exact h

theorem act_res {s : Many B H} (h : Inv s) {u : User B H} (hu : u ∈ s.users) (r : Result H) (hr : (act s.disk u).2.pos = .done r) :
    RightArchive u.key.hash r := by
  unfold act at hr
  split at hr
  · split at hr <;> simp at hr; split at hr <;> simp at hr
  · simp only [At.done.injEq] at hr
    subst hr
    cases hm : s.disk.md u.key with
    | none => trivial
    | some f => exact h.md _ f hm
  · split at hr <;> simp at hr
  · simp at hr; split at hr <;> simp at hr
  · split at hr <;> simp at hr; subst hr; trivial
  · split at hr <;> simp at hr; subst hr; trivial
  · simp at hr
  · split at hr <;> simp at hr; subst hr; trivial
  · simp at hr; subst hr; rfl
  · split at hr <;> simp at hr
  · split at hr <;> simp at hr; subst hr; trivial
  · simp at hr
  · simp at hr
  · split at hr <;> simp at hr; subst hr; trivial
  · simp at hr; split at hr <;> simp at hr; subst hr; trivial
  · split at hr
    · rename_i f hf; simp at hr; subst hr; exact h.wheel _ f hf
    · simp at hr; subst hr; trivial
  · exact h.res u r hu hr

theorem Inv.happen {s : Many B H} (h : Inv s) (e : Event) : Inv (happen s e) := by
  cases e with
  | step i =>
    simp only [BuildCache.happen]
    split
    · rename_i u hu
      have hmem := List.mem_of_getElem? hu
      refine ⟨act_md h.md u, act_wheel h.wheel u, fun v r hv hr => ?_⟩
      rcases List.mem_or_eq_of_mem_set hv with hv | rfl
      · exact h.res v r hv hr
      · rw [act_key]; exact act_res h hmem r hr
    · exact h
  | kill i =>
    simp only [BuildCache.happen]
    split
    · rename_i u hu
      split
      · exact h
      · refine ⟨h.md, h.wheel, fun v r hv hr => ?_⟩
        rcases List.mem_or_eq_of_mem_set hv with hv | rfl
        · exact h.res v r hv hr
        · simp at hr; subst hr; trivial
    · exact h
  | clean => exact ⟨fun k f hf => by simp [BuildCache.happen] at hf, fun k f hf => by simp [BuildCache.happen] at hf, h.res⟩

theorem Inv.run {s : Many B H} (h : Inv s) (es : List Event) : Inv (cacheRun s es) := by
  induction es generalizing s with
  | nil => exact h
  | cons e es ih => exact ih (h.happen e)

theorem Inv.start {d : Disk B H} (hd : CacheSound d) {us : List (User B H)} (hu : Waiting us) : Inv ⟨d, us⟩ :=
  ⟨fun k f hf => congrArg Prod.fst (hd.md k f hf), fun k f hf => congrArg Prod.fst (hd.wheel k f hf),
    fun u r hm hr => by rw [(hu u hm).1] at hr; cases hr⟩

/-- C99: however many users there are, whatever their order, and whoever is killed: what a user gets comes from the archive that was asked
for, and so does every file of the cache. -/
theorem cache_right_archive (d : Disk B H) (hd : CacheSound d) (us : List (User B H)) (hu : Waiting us) (es : List Event) :
    let s := cacheRun ⟨d, us⟩ es
    (∀ u ∈ s.users, ∀ r, u.result = some r → RightArchive u.key.hash r) ∧
    (∀ k f, s.disk.md k = some f → (read f).1 = k.hash) ∧ (∀ k f, s.disk.wheel k = some f → (read f).1 = k.hash) := by
  have h := (Inv.start hd hu).run es
  refine ⟨fun u hm r hr => ?_, h.md, h.wheel⟩
  refine h.res u r hm ?_
  unfold User.result at hr
  split at hr
  · simp only [Option.some.injEq] at hr; subst hr; assumption
  · cases hr

/-! ### The files are whole in the end -/

structure Whole (s : Many B H) : Prop where
  md : ∀ k f, s.disk.md k = some f → f.whole = true ∨
    ∃ (i : Nat) (u : User B H), s.users[i]? = some u ∧ u.key = k ∧ (u.pos = .writeMeta f.id ∨ u.pos = .saveWrite f.id)
  wheel : ∀ k f, s.disk.wheel k = some f → f.whole = true ∨
    ∃ (i : Nat) (u : User B H), s.users[i]? = some u ∧ u.key = k ∧ u.pos = .moveWrite f.id

/-- What a step does to the METADATA: nothing, or it is removed, or opened, or written. -/
theorem act_md_cases (d : Disk B H) (u : User B H) (k : Key B H) (f : File H) (hf : (act d u).1.md k = some f) :
    (d.md k = some f ∧ (u.key = k → ∀ id, u.pos = .writeMeta id ∨ u.pos = .saveWrite id → f.id ≠ id ∨ f.whole = true)) ∨
    (u.key = k ∧ ((act d u).2.pos = .writeMeta f.id ∨ (act d u).2.pos = .saveWrite f.id)) ∨ f.whole = true := by
  have hw : ∀ id, upd d.md u.key (written id (d.md u.key)) k = some f →
      (d.md k = some f ∧ (u.key = k → f.id ≠ id)) ∨ f.whole = true := by
    intro id hf
    simp only [upd] at hf
    split at hf
    · rename_i e
      cases hm : d.md u.key with
      | none => simp [hm, written] at hf
      | some g =>
        simp only [hm, written, Option.map_some, Option.some.injEq] at hf
        split at hf
        · right; rw [← hf]
        · rename_i hid
          left; subst hf; exact ⟨by rw [e]; exact hm, fun _ => hid⟩
    · rename_i e
      exact Or.inl ⟨hf, fun e' => absurd e'.symm e⟩
  unfold act at hf ⊢
  split at hf
  case h_1 hp => left; refine ⟨?_, fun _ id h => by simp [hp] at h⟩; split at hf <;> exact hf
  case h_2 hp => exact Or.inl ⟨hf, fun _ id h => by simp [hp] at h⟩
  case h_3 hp => left; refine ⟨?_, fun _ id h => by simp [hp] at h⟩; split at hf <;> exact hf
  case h_4 hp => exact Or.inl ⟨hf, fun _ id h => by simp [hp] at h⟩
  case h_5 hp =>
    left; refine ⟨?_, fun _ id h => by simp [hp] at h⟩
    split at hf
    · simp only [rmtree] at hf; split at hf
      · simp at hf
      · exact hf
    · exact hf
  case h_6 hp => left; refine ⟨?_, fun _ id h => by simp [hp] at h⟩; split at hf <;> exact hf
  case h_7 hp => exact Or.inl ⟨hf, fun _ id h => by simp [hp] at h⟩
  case h_8 hp =>
    split at hf
    · rename_i hd
      simp only [upd] at hf
      split at hf
      · rename_i e
        right; left
        simp only [Option.some.injEq] at hf
        refine ⟨e.symm, Or.inl ?_⟩
        simp only [hd, if_true]
        rw [hf]
      · exact Or.inl ⟨hf, fun _ id h => by simp [hp] at h⟩
    · exact Or.inl ⟨hf, fun _ id h => by simp [hp] at h⟩
  case h_9 id0 hp =>
    rcases hw _ hf with ⟨h1, h2⟩ | h
    · refine Or.inl ⟨h1, fun e id h => Or.inl ?_⟩
      simp [hp] at h; subst h; exact h2 e
    · exact Or.inr (Or.inr h)
  case h_10 hp => left; refine ⟨?_, fun _ id h => by simp [hp] at h⟩; split at hf <;> exact hf
  case h_11 hp =>
    split at hf
    · rename_i hd
      simp only [upd] at hf
      split at hf
      · rename_i e
        right; left
        simp only [Option.some.injEq] at hf
        refine ⟨e.symm, Or.inr ?_⟩
        simp only [hd, if_true]
        rw [hf]
      · exact Or.inl ⟨hf, fun _ id h => by simp [hp] at h⟩
    · exact Or.inl ⟨hf, fun _ id h => by simp [hp] at h⟩
  case h_12 id0 hp =>
    rcases hw _ hf with ⟨h1, h2⟩ | h
    · refine Or.inl ⟨h1, fun e id h => Or.inl ?_⟩
      simp [hp] at h; subst h; exact h2 e
    · exact Or.inr (Or.inr h)
  case h_13 hp => exact Or.inl ⟨hf, fun _ id h => by simp [hp] at h⟩
  case h_14 hp => left; refine ⟨?_, fun _ id h => by simp [hp] at h⟩; split at hf <;> exact hf
  case h_15 hp => exact Or.inl ⟨hf, fun _ id h => by simp [hp] at h⟩
  case h_16 hp => left; refine ⟨?_, fun _ id h => by simp [hp] at h⟩; split at hf <;> exact hf
  case h_17 hp => exact Or.inl ⟨hf, fun _ id h => by simp [hp] at h⟩

theorem act_wheel_cases (d : Disk B H) (u : User B H) (k : Key B H) (f : File H) (hf : (act d u).1.wheel k = some f) :
    (d.wheel k = some f ∧ (u.key = k → ∀ id, u.pos = .moveWrite id → f.id ≠ id ∨ f.whole = true)) ∨
    (u.key = k ∧ (act d u).2.pos = .moveWrite f.id) ∨ f.whole = true := by
  have hw : ∀ id, upd d.wheel u.key (written id (d.wheel u.key)) k = some f →
      (d.wheel k = some f ∧ (u.key = k → f.id ≠ id)) ∨ f.whole = true := by
    intro id hf
    simp only [upd] at hf
    split at hf
    · rename_i e
      cases hm : d.wheel u.key with
      | none => simp [hm, written] at hf
      | some g =>
        simp only [hm, written, Option.map_some, Option.some.injEq] at hf
        split at hf
        · right; rw [← hf]
        · rename_i hid
          left; subst hf; exact ⟨by rw [e]; exact hm, fun _ => hid⟩
    · rename_i e
      exact Or.inl ⟨hf, fun e' => absurd e'.symm e⟩
  unfold act at hf ⊢
  split at hf
  case h_1 hp => left; refine ⟨?_, fun _ id h => by simp [hp] at h⟩; split at hf <;> exact hf
  case h_2 hp => exact Or.inl ⟨hf, fun _ id h => by simp [hp] at h⟩
  case h_3 hp => left; refine ⟨?_, fun _ id h => by simp [hp] at h⟩; split at hf <;> exact hf
  case h_4 hp => exact Or.inl ⟨hf, fun _ id h => by simp [hp] at h⟩
  case h_5 hp =>
    left; refine ⟨?_, fun _ id h => by simp [hp] at h⟩
    split at hf
    · simp only [rmtree] at hf; split at hf
      · simp at hf
      · exact hf
    · exact hf
  case h_6 hp => left; refine ⟨?_, fun _ id h => by simp [hp] at h⟩; split at hf <;> exact hf
  case h_7 hp => exact Or.inl ⟨hf, fun _ id h => by simp [hp] at h⟩
  case h_8 hp => left; refine ⟨?_, fun _ id h => by simp [hp] at h⟩; split at hf <;> exact hf
  case h_9 id0 hp => exact Or.inl ⟨hf, fun _ id h => by simp [hp] at h⟩
  case h_10 hp => left; refine ⟨?_, fun _ id h => by simp [hp] at h⟩; split at hf <;> exact hf
  case h_11 hp => left; refine ⟨?_, fun _ id h => by simp [hp] at h⟩; split at hf <;> exact hf
  case h_12 id0 hp => exact Or.inl ⟨hf, fun _ id h => by simp [hp] at h⟩
  case h_13 hp => exact Or.inl ⟨hf, fun _ id h => by simp [hp] at h⟩
  case h_14 hp =>
    split at hf
    · rename_i hd
      simp only [upd] at hf
      split at hf
      · rename_i e
        right; left
        simp only [Option.some.injEq] at hf
        refine ⟨e.symm, ?_⟩
        simp only [hd, if_true]
        rw [hf]
      · exact Or.inl ⟨hf, fun _ id h => by simp [hp] at h⟩
    · exact Or.inl ⟨hf, fun _ id h => by simp [hp] at h⟩
  case h_15 id0 hp =>
    rcases hw _ hf with ⟨h1, h2⟩ | h
    · refine Or.inl ⟨h1, fun e id h => Or.inl ?_⟩
      simp [hp] at h; subst h; exact h2 e
    · exact Or.inr (Or.inr h)
  case h_16 hp => left; refine ⟨?_, fun _ id h => by simp [hp] at h⟩; split at hf <;> exact hf
  case h_17 hp => exact Or.inl ⟨hf, fun _ id h => by simp [hp] at h⟩

theorem Whole.happen {s : Many B H} (h : Whole s) (e : Event)
    (he : ∀ (i : Nat) (u : User B H), e = .kill i → s.users[i]? = some u → ¬ MidWrite u.pos) : Whole (happen s e) := by
  cases e with
  | step i =>
    simp only [BuildCache.happen]
    split
    · rename_i u hu
      have hlt : i < s.users.length := by
        rcases Nat.lt_or_ge i s.users.length with h | h
        · exact h
        · rw [List.getElem?_eq_none h] at hu; cases hu
      have hself : (s.users.set i (act s.disk u).2)[i]? = some (act s.disk u).2 := by simp [hlt]
      constructor
      · intro k f hf
        rcases act_md_cases s.disk u k f hf with ⟨h1, h2⟩ | ⟨h1, h2⟩ | h1
        · rcases h.md k f h1 with hwhole | ⟨j, v, hv, hvk, hvp⟩
          · exact Or.inl hwhole
          · by_cases hj : j = i
            · subst hj
              rw [hu] at hv; cases hv
              have : f.id ≠ f.id ∨ f.whole = true := h2 hvk f.id hvp
              rcases this with this | this
              · exact absurd rfl this
              · exact Or.inl this
            · exact Or.inr ⟨j, v, by rw [List.getElem?_set_ne (fun e => hj e.symm)]; exact hv, hvk, hvp⟩
        · exact Or.inr ⟨i, _, hself, by rw [act_key]; exact h1, h2⟩
        · exact Or.inl h1
      · intro k f hf
        rcases act_wheel_cases s.disk u k f hf with ⟨h1, h2⟩ | ⟨h1, h2⟩ | h1
        · rcases h.wheel k f h1 with hwhole | ⟨j, v, hv, hvk, hvp⟩
          · exact Or.inl hwhole
          · by_cases hj : j = i
            · subst hj
              rw [hu] at hv; cases hv
              rcases h2 hvk f.id hvp with this | this
              · exact absurd rfl this
              · exact Or.inl this
            · exact Or.inr ⟨j, v, by rw [List.getElem?_set_ne (fun e => hj e.symm)]; exact hv, hvk, hvp⟩
        · exact Or.inr ⟨i, _, hself, by rw [act_key]; exact h1, h2⟩
        · exact Or.inl h1
    · exact h
  | kill i =>
    simp only [BuildCache.happen]
    split
    · rename_i u hu
      split
      · exact h
      · have hnot := he i u rfl hu
        constructor
        · intro k f hf
          rcases h.md k f hf with hwhole | ⟨j, v, hv, hvk, hvp⟩
          · exact Or.inl hwhole
          · by_cases hj : j = i
            · subst hj
              rw [hu] at hv; cases hv
              rcases hvp with hvp | hvp <;> rw [hvp] at hnot <;> exact absurd trivial hnot
            · exact Or.inr ⟨j, v, by rw [List.getElem?_set_ne (fun e => hj e.symm)]; exact hv, hvk, hvp⟩
        · intro k f hf
          rcases h.wheel k f hf with hwhole | ⟨j, v, hv, hvk, hvp⟩
          · exact Or.inl hwhole
          · by_cases hj : j = i
            · subst hj
              rw [hu] at hv; cases hv
              rw [hvp] at hnot; exact absurd trivial hnot
            · exact Or.inr ⟨j, v, by rw [List.getElem?_set_ne (fun e => hj e.symm)]; exact hv, hvk, hvp⟩
    · exact h
  | clean => exact ⟨fun k f hf => by simp [BuildCache.happen] at hf, fun k f hf => by simp [BuildCache.happen] at hf⟩

theorem Whole.run {s : Many B H} (h : Whole s) (es : List Event) (he : SafeKills s es) : Whole (cacheRun s es) := by
  induction es generalizing s with
  | nil => exact h
  | cons e es ih =>
    exact ih (h.happen e he.1) he.2

/-- C99: however many users there are and whatever their order: if none is killed between opening a file and writing it, then once they
have all ended every file of the cache is whole, and by `cache_hit` and `cache_miss` later uses get whole files. -/
theorem cache_whole_at_end_partial (d : Disk B H) (hd : CacheSound d) (us : List (User B H)) (hu : Waiting us) (es : List Event)
    (he : SafeKills ⟨d, us⟩ es) (hend : ∀ u ∈ (cacheRun ⟨d, us⟩ es).users, u.result ≠ none) : CacheSound (cacheRun ⟨d, us⟩ es).disk := by
  have hi := (Inv.start hd hu).run es
  have hw : Whole (cacheRun ⟨d, us⟩ es) :=
    Whole.run ⟨fun k f hf => Or.inl (congrArg Prod.snd (hd.md k f hf)), fun k f hf => Or.inl (congrArg Prod.snd (hd.wheel k f hf))⟩ es he
  have hdone : ∀ (i : Nat) (u : User B H), (cacheRun ⟨d, us⟩ es).users[i]? = some u → ∃ r, u.pos = .done r := by
    intro i u h
    have := hend u (List.mem_of_getElem? h)
    unfold User.result at this
    split at this
    · exact ⟨_, by assumption⟩
    · exact absurd rfl this
  constructor
  · intro k f hf
    have h1 : f.whole = true := by
      rcases hw.md k f hf with h | ⟨i, u, h, _, hp⟩
      · exact h
      · obtain ⟨r, hr⟩ := hdone i u h
        rw [hr] at hp; simp at hp
    simp [read, h1, hi.md k f hf]
  · intro k f hf
    have h1 : f.whole = true := by
      rcases hw.wheel k f hf with h | ⟨i, u, h, _, hp⟩
      · exact h
      · obtain ⟨r, hr⟩ := hdone i u h
        rw [hr] at hp; simp at hp
    simp [read, h1, hi.wheel k f hf]

/-- Directories also with many users. -/
theorem run_tree {s : Many B H} (h : CacheTree s.disk) (es : List Event) : CacheTree (cacheRun s es).disk := by
  induction es generalizing s with
  | nil => exact h
  | cons e es ih =>
    refine ih ?_
    cases e with
    | step i =>
      simp only [happen]
      split
      · exact act_tree h _
      · exact h
    | kill i =>
      simp only [happen]
      split
      · split <;> exact h
      · exact h
    | clean => exact ⟨fun k h => by simp [happen] at h, fun k f h => by simp [happen] at h, fun k f h => by simp [happen] at h⟩

end BuildCache
end Pkm
