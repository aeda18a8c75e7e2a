import Verif.Build.CacheMany
set_option linter.unusedSimpArgs false
set_option linter.unusedVariables false
set_option linter.unusedSectionVars false
/-
C99: users of the cache end, users for different packages do not disturb each other, users for the same package do.
-/
namespace Pkm
open Spec
namespace BuildCache
variable {B H : Type} [DecidableEq B] [DecidableEq H]

/-! ### Users end -/

/-- Steps that are left at most. -/
def rank : At H → Nat
  | .check => 12 | .glob => 11 | .clear => 10 | .remove => 9 | .build => 8 | .saveCheck => 7 | .saveOpen => 6
  | .saveWrite _ => 5 | .mkWheel => 4 | .moveOpen => 3 | .moveWrite _ => 2 | .use => 1 | .load => 1
  | .mkMeta => 3 | .openMeta => 2 | .writeMeta _ => 1 | .done _ => 0

theorem act_rank (d : Disk B H) (u : User B H) : rank (act d u).2.pos ≤ rank u.pos - 1 := by
  cases hp : u.pos <;> simp only [act, hp] <;> (repeat' split) <;> simp [rank, hp]

theorem rank_zero {u : User B H} (h : rank u.pos = 0) : ∃ r, u.result = some r := by
  unfold User.result
  cases hp : u.pos <;> simp [rank, hp] at h ⊢

/-- C99: no user waits for another: after at most twelve steps of its own, or when killed, a user has ended, whatever the others do. -/
theorem cache_ends (d : Disk B H) (us : List (User B H)) (es : List Event) (i : Nat) (hi : i < us.length)
    (h : 12 ≤ stepsOf i es ∨ .kill i ∈ es) :
    ∃ (u : User B H) (r : Result H), (cacheRun ⟨d, us⟩ es).users[i]? = some u ∧ u.result = some r := by
  have key : ∀ (es : List Event) (s : Many B H) (u : User B H), s.users[i]? = some u →
      ∃ v : User B H, (cacheRun s es).users[i]? = some v ∧ rank v.pos ≤ rank u.pos - stepsOf i es ∧ (.kill i ∈ es → rank v.pos = 0) := by
    intro es
    induction es with
    | nil => intro s u hu; exact ⟨u, hu, by simp [stepsOf], by simp⟩
    | cons e es ih =>
      intro s u hu
      have hlt : i < s.users.length := by
        rcases Nat.lt_or_ge i s.users.length with h | h
        · exact h
        · rw [List.getElem?_eq_none h] at hu; cases hu
      have hone : ∃ v : User B H, (happen s e).users[i]? = some v ∧
          rank v.pos ≤ rank u.pos - (if e = .step i then 1 else 0) ∧ (e = .kill i → rank v.pos = 0) := by
        cases e with
        | step j =>
          by_cases hj : j = i
          · subst hj
            refine ⟨(act s.disk u).2, by simp only [happen, hu]; rw [List.getElem?_set_self hlt], ?_, by simp⟩
            simpa using act_rank s.disk u
          · refine ⟨u, ?_, by simp [hj], by simp⟩
            simp only [happen]
            split
            · simp only; rw [List.getElem?_set_ne hj]; exact hu
            · exact hu
        | kill j =>
          by_cases hj : j = i
          · subst hj
            cases hp : u.pos with
            | done r => exact ⟨u, by simp only [happen, hu, hp], by simp [hp], fun _ => by rw [hp]; rfl⟩
            | _ => exact ⟨{ u with pos := .done .failed }, by simp only [happen, hu, hp]; rw [List.getElem?_set_self hlt], by simp [rank], fun _ => rfl⟩
          · refine ⟨u, ?_, by simp, fun e => absurd (by injection e) hj⟩
            simp only [happen]
            split
            · split
              · exact hu
              · simp only; rw [List.getElem?_set_ne hj]; exact hu
            · exact hu
        | clean => exact ⟨u, hu, by simp, by simp⟩
      obtain ⟨v, hv, hr, hk⟩ := hone
      obtain ⟨w, hw, hr', hk'⟩ := ih (happen s e) v hv
      refine ⟨w, hw, ?_, fun hm => ?_⟩
      · have : stepsOf i (e :: es) = stepsOf i es + (if e = .step i then 1 else 0) := by
          simp [stepsOf, List.countP_cons]
        rw [this]; omega
      · rcases List.mem_cons.1 hm with h | h
        · have := hk h.symm; omega
        · exact hk' h
  obtain ⟨v, hv, hr, hk⟩ := key es ⟨d, us⟩ us[i] (by simp [hi])
  have : rank us[i].pos ≤ 12 := by cases us[i].pos <;> simp [rank]
  obtain ⟨r, hr⟩ := rank_zero (u := v) (by rcases h with h | h; · omega
                                           · exact hk h)
  exact ⟨v, r, hv, hr⟩

/-! ### Users for different packages -/

/-- The same files for `b`. -/
structure Agree (b : B) (d d' : Disk B H) : Prop where
  bdir : d.bdir b = d'.bdir b
  dir : ∀ k, k.base = b → d.dir k = d'.dir k
  md : ∀ k, k.base = b → d.md k = d'.md k
  wheel : ∀ k, k.base = b → d.wheel k = d'.wheel k
  next : ∀ k, k.base = b → d.next k = d'.next k

theorem Agree.refl (b : B) (d : Disk B H) : Agree b d d := ⟨rfl, fun _ _ => rfl, fun _ _ => rfl, fun _ _ => rfl, fun _ _ => rfl⟩

theorem Agree.trans {b : B} {d d' d'' : Disk B H} (h : Agree b d d') (h' : Agree b d' d'') : Agree b d d'' :=
  ⟨h.bdir.trans h'.bdir, fun k e => (h.dir k e).trans (h'.dir k e), fun k e => (h.md k e).trans (h'.md k e),
    fun k e => (h.wheel k e).trans (h'.wheel k e), fun k e => (h.next k e).trans (h'.next k e)⟩

theorem upd_agree {V : Type} {b : B} {f g : Key B H → V} (h : ∀ k, k.base = b → f k = g k) (k : Key B H) (v : V) :
    ∀ k', k'.base = b → upd f k v k' = upd g k v k' := by
  intro k' e
  simp only [upd]
  split
  · rfl
  · exact h k' e

theorem upd_other {V : Type} {b : B} (f : Key B H → V) {k : Key B H} (hk : k.base ≠ b) (v : V) :
    ∀ k', k'.base = b → upd f k v k' = f k' := by
  intro k' e
  have : k' ≠ k := fun h => hk (by rw [← h]; exact e)
  simp [upd, this]

theorem act_other {b : B} (d : Disk B H) (u : User B H) (hu : u.key.base ≠ b) : Agree b (act d u).1 d := by
  have hmk : Agree b (mkdirs d u.key) d :=
    ⟨by simp [mkdirs, Ne.symm hu], upd_other _ hu _, fun _ _ => rfl, fun _ _ => rfl, fun _ _ => rfl⟩
  have hrm : Agree b (rmtree d u.key.base) d :=
    ⟨by simp [rmtree, Ne.symm hu], fun k e => by simp [rmtree, e, Ne.symm hu], fun k e => by simp [rmtree, e, Ne.symm hu],
      fun k e => by simp [rmtree, e, Ne.symm hu], fun _ _ => rfl⟩
  have hmd : ∀ v n, Agree b { d with md := upd d.md u.key v, next := upd d.next u.key n } d := fun v n =>
    ⟨rfl, fun _ _ => rfl, upd_other _ hu _, fun _ _ => rfl, upd_other _ hu _⟩
  have hmd' : ∀ v, Agree b { d with md := upd d.md u.key v } d := fun v =>
    ⟨rfl, fun _ _ => rfl, upd_other _ hu _, fun _ _ => rfl, fun _ _ => rfl⟩
  have hwh : ∀ v n, Agree b { d with wheel := upd d.wheel u.key v, next := upd d.next u.key n } d := fun v n =>
    ⟨rfl, fun _ _ => rfl, fun _ _ => rfl, upd_other _ hu _, upd_other _ hu _⟩
  have hwh' : ∀ v, Agree b { d with wheel := upd d.wheel u.key v } d := fun v =>
    ⟨rfl, fun _ _ => rfl, fun _ _ => rfl, upd_other _ hu _, fun _ _ => rfl⟩
  cases hp : u.pos <;> simp only [act, hp] <;> (repeat' split) <;>
    first | exact Agree.refl _ _ | exact hmk | exact hrm | exact hmd _ _ | exact hmd' _ | exact hwh _ _ | exact hwh' _

theorem act_agree {b : B} {d d' : Disk B H} (h : Agree b d d') (u : User B H) (hu : u.key.base = b) :
    (act d u).2 = (act d' u).2 ∧ Agree b (act d u).1 (act d' u).1 := by
  have hb : d.bdir u.key.base = d'.bdir u.key.base := by rw [hu]; exact h.bdir
  have hdir := h.dir u.key hu
  have hm := h.md u.key hu
  have hw := h.wheel u.key hu
  have hn := h.next u.key hu
  have hmk : Agree b (mkdirs d u.key) (mkdirs d' u.key) :=
    ⟨by simp [mkdirs, hu], upd_agree h.dir _ _, h.md, h.wheel, h.next⟩
  have hrm : Agree b (rmtree d u.key.base) (rmtree d' u.key.base) :=
    ⟨by simp [rmtree, hu], fun k e => by simp [rmtree, e, hu], fun k e => by simp [rmtree, e, hu],
      fun k e => by simp [rmtree, e, hu], h.next⟩
  cases hp : u.pos <;> simp only [act, hp, ← hb, ← hdir, ← hm, ← hw, ← hn] <;> (repeat' split) <;>
    first
    | exact ⟨by first | rfl | trivial, h⟩
    | exact ⟨by first | rfl | trivial, hmk⟩
    | exact ⟨by first | rfl | trivial, hrm⟩
    | exact ⟨by first | rfl | trivial, h.bdir, h.dir, upd_agree h.md _ _, h.wheel, upd_agree h.next _ _⟩
    | exact ⟨by first | rfl | trivial, h.bdir, h.dir, upd_agree h.md _ _, h.wheel, h.next⟩
    | exact ⟨by first | rfl | trivial, h.bdir, h.dir, h.md, upd_agree h.wheel _ _, upd_agree h.next _ _⟩
    | exact ⟨by first | rfl | trivial, h.bdir, h.dir, h.md, upd_agree h.wheel _ _, h.next⟩

theorem alone_done {d : Disk B H} {u : User B H} {r : Result H} (h : u.pos = .done r) (n : Nat) : alone d u n = (d, u) := by
  cases n <;> simp [alone, h]

theorem act_done {d : Disk B H} {u : User B H} {r : Result H} (h : u.pos = .done r) : act d u = (d, u) := by
  simp [act, h]

theorem alone_succ (d : Disk B H) (u : User B H) (n : Nat) : alone d u (n + 1) = alone (act d u).1 (act d u).2 n := by
  cases hp : u.pos with
  | done r => rw [alone_done hp, act_done hp, alone_done hp]
  | _ => rw [alone]; simp [hp]

theorem alone_rank (n : Nat) : ∀ (d : Disk B H) (u : User B H), rank (alone d u n).2.pos ≤ rank u.pos - n := by
  induction n with
  | zero => intro d u; simp [alone]
  | succ n ih =>
    intro d u
    rw [alone_succ]
    have h1 := ih (act d u).1 (act d u).2
    have h2 := act_rank d u
    omega

theorem alone_add (n m : Nat) : ∀ (d : Disk B H) (u : User B H), alone d u (n + m) = alone (alone d u n).1 (alone d u n).2 m := by
  induction n with
  | zero => intro d u; simp [alone]
  | succ n ih => intro d u; rw [Nat.add_right_comm, alone_succ, alone_succ, ih]

theorem result_done {u : User B H} {r : Result H} (h : u.result = some r) : u.pos = .done r := by
  unfold User.result at h
  split at h
  · simp only [Option.some.injEq] at h; subst h; assumption
  · cases h

/-- C99: users for different packages, versions or environments do not disturb each other: if nobody else is about for what a user asks for, the user ends
as if alone, whatever the others do and whoever of them is killed. -/
theorem cache_isolated (d : Disk B H) (us : List (User B H)) (hus : Waiting us) (i : Nat) (u : User B H) (hu : us[i]? = some u)
    (hother : ∀ (j : Nat) (v : User B H), us[j]? = some v → j ≠ i → v.key.base ≠ u.key.base)
    (es : List Event) (hk : .kill i ∉ es) (hc : .clean ∉ es) :
    ∃ v : User B H, (cacheRun ⟨d, us⟩ es).users[i]? = some v ∧
      (∀ r, v.result = some r → (call d u.key u.kind u.gives).2 = (v.built, some r) ∧
        ∀ k, k.base = u.key.base → (cacheRun ⟨d, us⟩ es).disk.md k = (call d u.key u.kind u.gives).1.md k ∧
          (cacheRun ⟨d, us⟩ es).disk.wheel k = (call d u.key u.kind u.gives).1.wheel k) ∧
      (12 ≤ stepsOf i es → v.result ≠ none) := by
  have key : ∀ (es : List Event) (s : Many B H) (w : User B H) (d' : Disk B H), .kill i ∉ es → .clean ∉ es → s.users[i]? = some w →
      w.key.base = u.key.base → Agree u.key.base s.disk d' →
      (∀ (j : Nat) (v : User B H), s.users[j]? = some v → j ≠ i → v.key.base ≠ u.key.base) →
      (cacheRun s es).users[i]? = some (alone d' w (stepsOf i es)).2 ∧
        Agree u.key.base (cacheRun s es).disk (alone d' w (stepsOf i es)).1 := by
    intro es
    induction es with
    | nil => intro s w d' _ _ hw hb ha _; exact ⟨hw, ha⟩
    | cons e es ih =>
      intro s w d' hk hc hw hb ha ho
      have hk' : .kill i ∉ es := fun h => hk (by simp [h])
      have hc' : .clean ∉ es := fun h => hc (by simp [h])
      have hlt : i < s.users.length := by
        rcases Nat.lt_or_ge i s.users.length with h | h
        · exact h
        · rw [List.getElem?_eq_none h] at hw; cases hw
      have hst : stepsOf i (e :: es) = stepsOf i es + (if e = .step i then 1 else 0) := by simp [stepsOf, List.countP_cons]
      cases e with
      | step j =>
        by_cases hj : j = i
        · subst hj
          rw [hst, if_pos rfl, alone_succ]
          obtain ⟨h1, h2⟩ := act_agree ha w hb
          refine ih _ _ _ hk' hc' ?_ (by rw [act_key]; exact hb) ?_ ?_
          · simp only [happen, hw]; rw [← h1, List.getElem?_set_self hlt]
          · simp only [happen, hw]; exact h2
          · intro j' v hv hne
            simp only [happen, hw] at hv
            rw [List.getElem?_set_ne (fun e => hne e.symm)] at hv
            exact ho j' v hv hne
        · have hne : ¬ (Event.step j = Event.step i) := fun e => hj (by injection e)
          rw [hst, if_neg hne]
          cases hv : s.users[j]? with
          | none =>
            have : happen s (.step j) = s := by simp [happen, hv]
            show (cacheRun (happen s (.step j)) es).users[i]? = _ ∧ Agree _ (cacheRun (happen s (.step j)) es).disk _
            rw [this]
            exact ih s w d' hk' hc' hw hb ha ho
          | some v =>
            refine ih _ w d' hk' hc' ?_ hb ?_ ?_
            · simp only [happen, hv]; rw [List.getElem?_set_ne hj]; exact hw
            · simp only [happen, hv]; exact (act_other s.disk v (ho j v hv hj)).trans ha
            · intro j' v' hv' hne'
              simp only [happen, hv] at hv'
              by_cases hjj : j' = j
              · subst hjj
                have hltj : j' < s.users.length := by
                  rcases Nat.lt_or_ge j' s.users.length with h | h
                  · exact h
                  · rw [List.getElem?_eq_none h] at hv; cases hv
                simp [hltj] at hv'
                rw [← hv', act_key]; exact ho j' v hv hne'
              · rw [List.getElem?_set_ne (fun e => hjj e.symm)] at hv'
                exact ho j' v' hv' hne'
      | kill j =>
        have hj : j ≠ i := fun e => hk (by simp [e])
        have hne : ¬ (Event.kill j = Event.step i) := by simp
        rw [hst, if_neg hne]
        have hd : (happen s (.kill j)).disk = s.disk := by
          simp only [happen]; split
          · split <;> rfl
          · rfl
        refine ih _ w d' hk' hc' ?_ hb (by rw [hd]; exact ha) ?_
        · simp only [happen]
          split
          · split
            · exact hw
            · simp only; rw [List.getElem?_set_ne hj]; exact hw
          · exact hw
        · intro j' v' hv' hne'
          simp only [happen] at hv'
          split at hv'
          · rename_i v hv
            split at hv'
            · exact ho j' v' hv' hne'
            · simp only at hv'
              by_cases hjj : j' = j
              · subst hjj
                have hltj : j' < s.users.length := by
                  rcases Nat.lt_or_ge j' s.users.length with h | h
                  · exact h
                  · rw [List.getElem?_eq_none h] at hv; cases hv
                simp [hltj] at hv'
                rw [← hv']; exact ho j' v hv hne'
              · rw [List.getElem?_set_ne (fun e => hjj e.symm)] at hv'
                exact ho j' v' hv' hne'
          · exact ho j' v' hv' hne'
      | clean => exact absurd (by simp) hc
  have hw := hus u (List.mem_of_getElem? hu)
  obtain ⟨h1, h2⟩ := key es ⟨d, us⟩ u d hk hc hu rfl (Agree.refl _ _) hother
  have hueq : u = ⟨u.key, u.kind, u.gives, false, .check⟩ := by
    obtain ⟨a, b, c, e, f⟩ := u
    simp only at hw ⊢
    rw [hw.1, hw.2]
  have h16 : ∃ r, (alone d u 16).2.result = some r := rank_zero (by
    have := alone_rank 16 d u
    have : rank u.pos = 12 := by rw [hw.1]; rfl
    omega)
  refine ⟨_, h1, fun r hr => ?_, fun h12 => ?_⟩
  · have hsame : alone d u 16 = alone d u (stepsOf i es) := by
      obtain ⟨r', hr'⟩ := h16
      rcases Nat.le_total (stepsOf i es) 16 with hle | hle
      · obtain ⟨m, hm⟩ := Nat.le.dest hle
        rw [← hm, alone_add, alone_done (result_done hr)]
      · obtain ⟨m, hm⟩ := Nat.le.dest hle
        rw [← hm, alone_add, alone_done (result_done hr')]
    have hc : call d u.key u.kind u.gives = ((alone d u 16).1, (alone d u 16).2.built, (alone d u 16).2.result) := by
      unfold call; rw [← hueq]
    rw [hc, hsame]
    exact ⟨by rw [hr], fun k e => ⟨h2.md k e, h2.wheel k e⟩⟩
  · obtain ⟨r, hr⟩ := rank_zero (u := (alone d u (stepsOf i es)).2) (by
      have := alone_rank (stepsOf i es) d u
      have : rank u.pos = 12 := by rw [hw.1]; rfl
      omega)
    rw [hr]; simp

/-! ### Users for the same package, and users that are killed -/

/-- What was built from the first and the second archive of a version. -/
def first : Key Nat Nat := ⟨0, 1⟩
def second : Key Nat Nat := ⟨0, 2⟩

def asks (k : Key Nat Nat) (kind : Kind) : User Nat Nat := { key := k, kind := kind, gives := some kind }

/-- What the users of a run end with, after the steps of the users with these numbers. -/
def ends (us : List (User Nat Nat)) (is : List Nat) : List (Option (Result Nat)) :=
  ((cacheRun ⟨empty, us⟩ (is.map .step)).users).map User.result

/-- C99 fails after a crash: the program is stopped while METADATA is written to the cache. From then on, and however often it is asked for,
the METADATA given is what had been written. -/
theorem cache_killed_violated :
    (cacheRun ⟨empty, [asks first .metadata]⟩ [.step 0, .step 0, .step 0, .step 0, .step 0, .kill 0]).users.map User.result = [some .failed] ∧
    ∀ cs : List (CacheUse Nat Nat), (∀ c ∈ cs, c.kind = .metadata ∧ c.key = first ∨ c.key.base ≠ first.base) → (∀ c ∈ cs, c.Sensible) →
    (call (cacheAfter (cacheRun ⟨empty, [asks first .metadata]⟩ [.step 0, .step 0, .step 0, .step 0, .step 0, .kill 0]).disk cs) first .metadata
      (some .metadata)).2 = (false, some (.metadata (some (1, false)))) := by
  refine ⟨by decide, fun cs hcs hs => ?_⟩
  have key : ∀ (cs : List (CacheUse Nat Nat)) (d : Disk Nat Nat), CacheTree d →
      (∀ c ∈ cs, c.kind = .metadata ∧ c.key = first ∨ c.key.base ≠ first.base) → (∀ c ∈ cs, c.Sensible) →
      (d.md first).map read = some (1, false) → ((cacheAfter d cs).md first).map read = some (1, false) := by
    intro cs
    induction cs with
    | nil => intro d _ _ _ h; exact h
    | cons c cs ih =>
      intro d ht hcs hs h
      refine ih _ (call_tree ht c.key c.kind c.gives) (fun c' h' => hcs c' (by simp [h'])) (fun c' h' => hs c' (by simp [h'])) ?_
      show (((call d c.key c.kind c.gives).1).md first).map read = some (1, false)
      rcases hit_or_miss d c with ⟨f', hf', hk⟩ | hm
      · have hh := cache_hit d c.key c.gives f' hf'
        cases hkind : c.kind with
        | metadata => rw [hh.1]; exact h
        | wheel =>
          rw [hkind] at hk
          obtain ⟨w', hw'⟩ := hk.resolve_left (by simp)
          rw [hh.2 w' hw']; exact h
      · have hh := cache_miss d c ht (hs c (by simp)) hm
        rcases hcs c (by simp) with ⟨hk, hck⟩ | hcb
        · rw [hck, hk] at hm
          rcases hm with hm | hm
          · rw [hm] at h; simp at h
          · simp at hm
        · have hne : first ≠ c.key := fun e => hcb (by rw [e])
          have hbb : first.base ≠ c.key.base := fun e => hcb e.symm
          rw [hh.2.2.1 first]
          simpa only [hne, hbb, false_and, if_false] using h
  have h := key cs _ (run_tree (s := ⟨empty, [asks first .metadata]⟩) empty_tree [.step 0, .step 0, .step 0, .step 0, .step 0, .kill 0])
    hcs hs (by decide)
  obtain ⟨f, hf, hr⟩ := Option.map_eq_some_iff.1 h
  rw [(cache_hit _ first (some .metadata) f hf).1, hr]

/-- C99 fails: the same for a wheel, when the directory of temporary files is on another disk: half a wheel is installed. -/
theorem cache_killed_wheel_violated :
    (call (cacheRun ⟨empty, [asks first .wheel]⟩ ((List.replicate 8 (.step 0)) ++ [.kill 0])).disk first .wheel (some .wheel)).2 =
      (false, some (.wheel (1, false))) := by decide

/-- C99 fails with two users for the same archive: the one gets half of the METADATA that the other is writing. -/
theorem cache_half_metadata_violated :
    ends [asks first .metadata, asks first .metadata] (List.replicate 5 0 ++ [1, 1] ++ [0]) =
      [some (.metadata (some (1, true))), some (.metadata (some (1, false)))] := by decide

/-- C99 fails with two users for the same archive: METADATA that has been removed is taken for METADATA without anything in it: the
package seems to have no dependencies. -/
theorem cache_empty_metadata_violated :
    ends [asks first .metadata, asks first .metadata, asks first .metadata] ([1] ++ List.replicate 6 0 ++ [2] ++ List.replicate 2 1 ++ [2]) =
      [some (.metadata (some (1, true))), none, some (.metadata none)] := by decide

/-- C99 fails with two users for the same archive: the wheel that the one is about to install is removed by the other. -/
theorem cache_wheel_removed_violated :
    ends [asks first .wheel, asks first .wheel] ([1] ++ List.replicate 9 0 ++ List.replicate 2 1 ++ [0]) = [some .failed, none] := by decide

/-- C99 fails with two users for the same archive: both want to remove the directory, for one of them it is not there any more. -/
theorem cache_remove_twice_violated :
    (cacheRun ⟨(call empty second .metadata (some .metadata)).1, [asks first .metadata, asks first .metadata]⟩
      ([0, 0, 1, 1, 0, 1].map .step)).users.map User.result = [none, some .failed] := by decide

/-- C99 fails: the two archives of a version (.zip and .tar.gz) push each other out of the cache, each use is a build. -/
theorem cache_two_archives_violated (d : Disk B H) (ht : CacheTree d) (k k' : Key B H) (hb : k'.base = k.base) (hne : k' ≠ k) (gives : Option Kind)
    (hg : gives ≠ some .metadata) (hm : d.md k' = none) :
    (call (call d k' .wheel (some .wheel)).1 k .wheel gives).2.1 = true := by
  have h := cache_miss d ⟨k', .wheel, some .wheel⟩ ht (fun _ => by simp) (Or.inl hm)
  have h1 := h.2.2.1 k
  simp only [Ne.symm hne, false_and, if_false, hb, if_true, Option.map_eq_none_iff] at h1
  exact (cache_miss _ ⟨k, .wheel, gives⟩ (call_tree ht _ _ _) (fun _ => hg) (Or.inl h1)).1

/-- C99 fails: METADATA of a package whose back-end cannot give it alone is a path the first time. -/
theorem cache_path_for_metadata_violated :
    (call (empty : Disk Nat Nat) first .metadata (some .wheel)).2 = (true, some .path) ∧
    (call (call (empty : Disk Nat Nat) first .metadata (some .wheel)).1 first .metadata (some .wheel)).2 =
      (false, some (.metadata (some (1, true)))) := by decide

/-! ### Cases -/

example : Waiting [asks first .metadata, asks second .wheel, asks ⟨5, 6⟩ .wheel] := by
  intro u hu
  simp at hu
  rcases hu with rfl | rfl | rfl <;> exact ⟨rfl, rfl⟩

/-- Two packages at once. -/
example : ends [asks first .wheel, asks ⟨5, 6⟩ .wheel] ((List.replicate 12 [0, 1]).flatten) =
    [some (.wheel (1, true)), some (.wheel (6, true))] := by decide

/-- METADATA, then the wheel (which throws away the METADATA and builds again), then both from the cache. -/
example : let d := cacheAfter (empty : Disk Nat Nat) [⟨first, .metadata, some .metadata⟩, ⟨first, .wheel, some .wheel⟩]
    (call d first .wheel none).2 = (false, some (.wheel (1, true))) ∧
    (call d first .metadata none).2 = (false, some (.metadata (some (1, true)))) := by decide

end BuildCache
end Pkm
