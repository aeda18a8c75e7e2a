import Verif.Display.Live
set_option linter.unusedSimpArgs false
set_option linter.unusedVariables false
set_option linter.unusedSectionVars false
/-
C101: the live display shows what is being done.
-/
namespace Pkm
namespace Spec
open Live

/-- What has happened after some events. -/
def liveRun (s : State) (es : List Live.Event) : State := es.foldl happen s

/-- A thread is in `with Display.show(..)`. -/
def Showing (s : State) (i : Nat) : Prop := s.users[i]? = some .shown

instance (s : State) (i : Nat) : Decidable (Showing s i) := inferInstanceAs (Decidable (_ = _))

/-- A thread has begun to show its piece. -/
def HasBegun (s : State) (i : Nat) : Prop := ∃ u, s.users[i]? = some u ∧ u ≠ .idle

/-- A thread has read the list of pieces and not yet replaced it. -/
def MidUpdate (s : State) (i : Nat) : Prop := ∃ xs, s.users[i]? = some (.adding xs) ∨ s.users[i]? = some (.removing xs)

/-- No two threads are in the middle of changing the list. -/
def OneAtATime (s : State) : Prop := ∀ i j, MidUpdate s i → MidUpdate s j → i = j

/-- A thread takes its piece away just after the screen was drawn, before it is noted whether something was drawn. -/
def TakenAtNote (s : State) : Live.Event → Prop
  | .user i => s.ref = .note ∧ ∃ xs, s.users[i]? = some (.removing xs)
  | .refresh => False

/-- Along a run, no two threads change the list at the same time. -/
def Calm (s : State) : List Live.Event → Prop
  | [] => OneAtATime s
  | e :: es => OneAtATime s ∧ Calm (happen s e) es

/-- Along a run, nothing is taken away between drawing and noting. -/
def Noted (s : State) : List Live.Event → Prop
  | [] => True
  | e :: es => ¬ TakenAtNote s e ∧ Noted (happen s e) es

/-- Steps of the drawing thread alone. -/
def redraw (s : State) : Nat → State
  | 0 => s
  | n + 1 => redraw (happen s .refresh) n

end Spec
open Spec
namespace Live

theorem lt_of_get {l : List At} {i : Nat} {u : At} (h : l[i]? = some u) : i < l.length := by
  rcases Nat.lt_or_ge i l.length with h' | h'
  · exact h'
  · rw [List.getElem?_eq_none h'] at h; cases h

theorem set_get {l : List At} {i : Nat} {u : At} (h : l[i]? = some u) (v : At) (j : Nat) :
    (l.set i v)[j]? = if j = i then some v else l[j]? := by
  split
  · rename_i e; subst e; simp [lt_of_get h]
  · rename_i e; rw [List.getElem?_set_ne (fun h' => e h'.symm)]

theorem refStep_users (s : State) : (refStep s).users = s.users ∧ (refStep s).comps = s.comps := by
  unfold refStep
  repeat' split
  all_goals exact ⟨rfl, rfl⟩

/-! ### Who is in the list -/

/-- A list of pieces of threads that have put them there. -/
def Known (s : State) (xs : List Nat) : Prop :=
  xs.Nodup ∧ ∀ j ∈ xs, ∃ u, s.users[j]? = some u ∧ (u = .added ∨ u = .shown ∨ (∃ ys, u = .removing ys) ∨ u = .gone)

structure Inv (s : State) : Prop where
  comps : Known s s.comps
  adding : ∀ (i : Nat) xs, s.users[i]? = some (.adding xs) → Known s xs
  removing : ∀ (i : Nat) xs, s.users[i]? = some (.removing xs) → Known s xs

/-- A thread goes on; what was known stays. -/
theorem Known.set {s : State} {xs : List Nat} (h : Known s xs) {s' : State} {i : Nat} {u v : At} (hu : s.users[i]? = some u)
    (hs : s'.users = s.users.set i v)
    (hv : (u = .added ∨ u = .shown ∨ (∃ ys, u = .removing ys) ∨ u = .gone) → (v = .added ∨ v = .shown ∨ (∃ ys, v = .removing ys) ∨ v = .gone)) :
    Known s' xs := by
  refine ⟨h.1, fun j hj => ?_⟩
  obtain ⟨w, hw, hk⟩ := h.2 j hj
  rw [hs, set_get hu]
  split
  · rename_i e; subst e
    rw [hu] at hw; cases hw
    exact ⟨v, rfl, hv hk⟩
  · exact ⟨w, hw, hk⟩

theorem Inv.step {s : State} (h : Inv s) (e : Event) : Inv (happen s e) := by
  cases e with
  | refresh =>
    obtain ⟨h1, h2⟩ := refStep_users s
    have hk : ∀ xs, Known s xs → Known (refStep s) xs := fun xs hx => ⟨hx.1, by rw [h1]; exact hx.2⟩
    refine ⟨by show Known _ (refStep s).comps; rw [h2]; exact hk _ h.comps, fun i xs hi => ?_, fun i xs hi => ?_⟩
    · rw [show (happen s .refresh).users = s.users from h1] at hi; exact hk _ (h.adding i xs hi)
    · rw [show (happen s .refresh).users = s.users from h1] at hi; exact hk _ (h.removing i xs hi)
  | user i =>
    show Inv (userStep s i)
    -- all lists other than the new ones
    have old : ∀ {s' : State} {u v : At}, s.users[i]? = some u → s'.users = s.users.set i v →
        ((u = .added ∨ u = .shown ∨ (∃ ys, u = .removing ys) ∨ u = .gone) → (v = .added ∨ v = .shown ∨ (∃ ys, v = .removing ys) ∨ v = .gone)) →
        Known s' s'.comps → (∀ xs, v = .adding xs ∨ v = .removing xs → Known s' xs) → Inv s' := by
      intro s' u v hu hs hv hc hn
      refine ⟨hc, fun j xs hj => ?_, fun j xs hj => ?_⟩
      · rw [hs, set_get hu] at hj
        split at hj
        · simp at hj; exact hn xs (Or.inl hj)
        · exact (h.adding j xs hj).set hu hs hv
      · rw [hs, set_get hu] at hj
        split at hj
        · simp at hj; exact hn xs (Or.inr hj)
        · exact (h.removing j xs hj).set hu hs hv
    unfold userStep
    split
    · exact h
    · rename_i hu
      split
      · exact old hu rfl (by simp) (h.comps.set hu rfl (by simp)) (by simp)
      · exact h
    · rename_i hu
      have hc := h.comps.set (s' := { s with users := s.users.set i (.adding s.comps) }) hu rfl (by simp)
      refine old hu rfl (by simp) hc (fun xs hx => ?_)
      simp at hx; subst hx; exact hc
    · rename_i xs hu
      refine old hu rfl (by simp) ?_ (by simp)
      have hx := h.adding i xs hu
      have hx' := hx.set (s' := { s with comps := i :: xs, users := s.users.set i .added }) hu rfl (by simp)
      refine ⟨List.nodup_cons.2 ⟨fun hm => ?_, hx.1⟩, fun j hj => ?_⟩
      · obtain ⟨w, hw, hk⟩ := hx.2 i hm
        rw [hu] at hw; cases hw
        simp at hk
      · rcases List.mem_cons.1 hj with rfl | hj
        · exact ⟨.added, by simp [set_get hu], Or.inl rfl⟩
        · exact hx'.2 j hj
    · rename_i hu
      exact old hu rfl (by simp) (h.comps.set hu rfl (by simp)) (by simp)
    · rename_i hu
      have hc := h.comps.set (s' := { s with users := s.users.set i (.removing s.comps) }) hu rfl (by simp)
      refine old hu rfl (by simp) hc (fun xs hx => ?_)
      simp at hx; subst hx; exact hc
    · rename_i xs hu
      refine old hu rfl (by simp) ?_ (by simp)
      have hx' := (h.removing i xs hu).set (s' := { s with comps := xs.filter (· ≠ i), users := s.users.set i .gone }) hu rfl (by simp)
      exact ⟨hx'.1.filter _, fun j hj => hx'.2 j (List.mem_filter.1 hj).1⟩
    · exact h

theorem Inv.run {s : State} (h : Inv s) (es : List Event) : Inv (liveRun s es) := by
  induction es generalizing s with
  | nil => exact h
  | cons e es ih => exact ih (h.step e)

theorem start_idle {n i : Nat} {u : At} (h : (start n).users[i]? = some u) : u = .idle := by
  simp only [start] at h
  exact (List.eq_of_mem_replicate (List.mem_of_getElem? h))

theorem Inv.start (n : Nat) : Inv (start n) :=
  ⟨⟨List.nodup_nil, fun j hj => by cases hj⟩, fun i xs h => by have := start_idle h; simp at this, fun i xs h => by have := start_idle h; simp at this⟩

theorem Known.step {s : State} {xs : List Nat} (h : Known s xs) (e : Event) : Known (happen s e) xs := by
  cases e with
  | refresh => exact ⟨h.1, by show ∀ j ∈ xs, ∃ u, (refStep s).users[j]? = some u ∧ _; rw [(refStep_users s).1]; exact h.2⟩
  | user i =>
    show Known (userStep s i) xs
    unfold userStep
    split
    · exact h
    · rename_i hu
      split
      · exact h.set hu rfl (by simp)
      · exact h
    all_goals first | exact h | (rename_i hu; exact h.set hu rfl (by simp))

theorem drawn_known {s : State} (hi : Inv s) (h : Known s s.drawn) (es : List Event) : Known (liveRun s es) (liveRun s es).drawn := by
  induction es generalizing s with
  | nil => exact h
  | cons e es ih =>
    refine ih (hi.step e) ?_
    have hd : (happen s e).drawn = s.drawn ∨ (happen s e).drawn = s.comps := by
      cases e with
      | refresh => show (refStep s).drawn = _ ∨ (refStep s).drawn = _; unfold refStep; repeat' split
                   all_goals simp
      | user i => show (userStep s i).drawn = _ ∨ (userStep s i).drawn = _; unfold userStep; repeat' split
                  all_goals simp
    rcases hd with hd | hd <;> rw [hd]
    · exact h.step e
    · exact hi.comps.step e

/-- C101, whatever the order of the steps: nothing is on display twice, and only what some thread has begun to show; the same for the screen. -/
theorem display_no_strangers (n : Nat) (es : List Event) :
    let s := liveRun (start n) es
    (s.comps.Nodup ∧ ∀ i ∈ s.comps, HasBegun s i) ∧ (s.drawn.Nodup ∧ ∀ i ∈ s.drawn, HasBegun s i) := by
  intro s
  have key : ∀ xs, Known s xs → xs.Nodup ∧ ∀ i ∈ xs, HasBegun s i := by
    intro xs h
    refine ⟨h.1, fun i hi => ?_⟩
    obtain ⟨u, hu, hk⟩ := h.2 i hi
    exact ⟨u, hu, by rintro rfl; simp at hk⟩
  exact ⟨key _ ((Inv.start n).run es).comps, key _ (drawn_known (Inv.start n) ⟨List.nodup_nil, fun j hj => by cases hj⟩ es)⟩

/-! ### The lock -/

def Holds : At → Prop
  | .locked | .adding _ | .added => True
  | _ => False

structure LockInv (s : State) : Prop where
  user : ∀ (i : Nat) u, s.users[i]? = some u → (Holds u ↔ s.lock = some (.user i))
  ref : s.ref = .check ↔ s.lock = some .refresher
  bound : ∀ i, s.lock = some (.user i) → i < s.users.length

theorem notify_check (r : Ref) : (notify r = .check) = (r = .check) := by
  cases r <;> simp [notify]

theorem LockInv.step {s : State} (h : LockInv s) (e : Event) : LockInv (happen s e) := by
  cases e with
  | refresh =>
    show LockInv (refStep s)
    obtain ⟨hu, hr, hb⟩ := h
    unfold refStep
    split
    · rename_i hp
      refine ⟨hu, ?_, hb⟩
      simp only [hp] at hr
      simp only [← hr]
      split <;> simp
    · rename_i hp; simp only [hp] at hr; exact ⟨hu, by simp only [← hr]; simp, hb⟩
    · rename_i hp; simp only [hp] at hr; exact ⟨hu, by simp only [← hr]; simp, hb⟩
    · rename_i hp
      split
      · rename_i hl
        refine ⟨fun i u h' => ?_, by simp, by simp⟩
        have := hu i u h'
        simp [hl] at this
        simp [this]
      · exact ⟨hu, by rw [hp] at hr ⊢; exact hr, hb⟩
    · rename_i hp
      have hl := hr.1 hp
      refine ⟨fun i u h' => ?_, ?_, by simp⟩
      · have := hu i u h'
        simp [hl] at this
        simp [this]
      · simp; split <;> simp
    · exact ⟨hu, hr, hb⟩
    · rename_i hp
      split
      · rename_i hl; refine ⟨hu, by simp [hl], hb⟩
      · exact ⟨hu, by rw [hp] at hr ⊢; exact hr, hb⟩
  | user i =>
    show LockInv (userStep s i)
    -- a step that leaves the lock alone
    have keep : ∀ {s' : State} {u v : At}, s.users[i]? = some u → s'.users = s.users.set i v → s'.lock = s.lock → s'.ref = s.ref →
        (Holds v ↔ Holds u) → LockInv s' := by
      intro s' u v hu hs hl hr hv
      refine ⟨fun j w hw => ?_, by rw [hr, hl]; exact h.ref, fun j hj => by rw [hs]; simp; exact h.bound j (by rw [← hl]; exact hj)⟩
      rw [hs, set_get hu] at hw
      rw [hl]
      split at hw
      · rename_i e; subst e; simp at hw; subst hw; rw [hv]; exact h.user _ u hu
      · exact h.user j w hw
    unfold userStep
    split
    · exact h
    · rename_i hu
      split
      · rename_i hl
        refine ⟨fun j w hw => ?_, ?_, fun j hj => ?_⟩
        · simp only [set_get hu] at hw
          split at hw
          · rename_i e; subst e; simp at hw; subst hw; simp [Holds]
          · rename_i e
            have := h.user j w hw
            simp [hl] at this
            simp [this]; exact fun e' => e e'.symm
        · have := h.ref; simp [hl] at this; simp [this]
        · simp at hj; subst hj; simp; exact lt_of_get hu
      · exact h
    · rename_i hu; exact keep hu rfl rfl rfl (by simp [Holds])
    · rename_i hu; exact keep hu rfl rfl rfl (by simp [Holds])
    · rename_i hu
      have hl := (h.user i _ hu).1 (by simp [Holds])
      refine ⟨fun j w hw => ?_, ?_, by simp⟩
      · simp only [set_get hu] at hw
        split at hw
        · simp at hw; subst hw; simp [Holds]
        · rename_i e
          have := h.user j w hw
          simp [hl, fun e' => e (Eq.symm e')] at this
          simp [this]
          intro hh
          exact e hh.symm
      · have := h.ref; simp [hl] at this
        simp only [reduceCtorEq, iff_false]
        split
        · rw [notify_check]; exact this
        · exact this
    · rename_i hu; exact keep hu rfl rfl rfl (by simp [Holds])
    · rename_i hu; exact keep hu rfl rfl rfl (by simp [Holds])
    · exact h

theorem LockInv.run {s : State} (h : LockInv s) (es : List Event) : LockInv (liveRun s es) := by
  induction es generalizing s with
  | nil => exact h
  | cons e es ih => exact ih (h.step e)

theorem LockInv.start (n : Nat) : LockInv (start n) :=
  ⟨fun i u h => by rw [start_idle h]; simp [Holds, Live.start], by simp [Live.start], by simp [Live.start]⟩

/-- Steps that are left. -/
def left : At → Nat
  | .idle => 6 | .locked => 5 | .adding _ => 4 | .added => 3 | .shown => 2 | .removing _ => 1 | .gone => 0

/-- C101, whatever the order of the steps: showing a piece takes six steps, of which only the first may have to wait; and when it has to wait, then for
a thread that can go on and will have released the lock after three steps at most, or for the drawing thread, which releases it with its next step. -/
theorem display_never_blocks (n : Nat) (es : List Event) (i : Nat) (u : At) (hu : (liveRun (start n) es).users[i]? = some u) :
    let s := liveRun (start n) es
    (u ≠ .idle → u ≠ .gone → ∃ v, (happen s (.user i)).users[i]? = some v ∧ left v + 1 = left u) ∧
    (u = .idle → (∃ v, (happen s (.user i)).users[i]? = some v ∧ left v + 1 = left u) ∨
      (∃ j w, s.lock = some (.user j) ∧ s.users[j]? = some w ∧ ((happen s (.user j)).lock = none ∨
        (happen (happen s (.user j)) (.user j)).lock = none ∨ (happen (happen (happen s (.user j)) (.user j)) (.user j)).lock = none)) ∨
      (happen s .refresh).lock = none) := by
  intro s
  have hl : LockInv s := (LockInv.start n).run es
  have hu : s.users[i]? = some u := hu
  clear_value s
  constructor
  · intro h1 h2
    simp only [happen, userStep, hu]
    cases u with
    | idle => exact absurd rfl h1
    | gone => exact absurd rfl h2
    | _ => exact ⟨_, (set_get hu _ i).trans (if_pos rfl), rfl⟩
  · rintro rfl
    cases hk : s.lock with
    | none => left; simp only [happen, userStep, hu, hk, if_true]; exact ⟨_, (set_get hu _ i).trans (if_pos rfl), rfl⟩
    | some o =>
      right
      cases o with
      | refresher => right; have := hl.ref.2 hk; simp [happen, refStep, this]
      | user j =>
        left
        have hj := hl.bound j hk
        obtain ⟨w, hw⟩ : ∃ w, s.users[j]? = some w := ⟨_, List.getElem?_eq_getElem hj⟩
        refine ⟨j, w, rfl, hw, ?_⟩
        have hh := (hl.user j w hw).2 hk
        have hself : ∀ (l : List At) (v : At), j < l.length → (l.set j v)[j]? = some v := by intro l v h; simp [h]
        cases w with
        | locked =>
          right; right
          simp only [happen, userStep, hw]
          simp only [hself _ _ hj, hself _ _ (show j < (s.users.set j _).length by simpa using hj)]
        | adding xs =>
          right; left
          simp only [happen, userStep, hw]
          simp only [hself _ _ hj]
        | added => left; simp only [happen, userStep, hw]
        | _ => exact absurd hh (by simp [Holds])

/-! ### Calm runs -/

/-- The piece of this thread belongs on display. -/
def Out : At → Prop
  | .added | .shown | .removing _ => True
  | _ => False

structure Exact (s : State) : Prop where
  mem : ∀ i, i ∈ s.comps ↔ ∃ u, s.users[i]? = some u ∧ Out u
  mid : ∀ (i : Nat) xs, s.users[i]? = some (.adding xs) ∨ s.users[i]? = some (.removing xs) → xs = s.comps
  wait : s.ref = .waiting → s.comps = [] ∨ (∃ i, s.lock = some (.user i) ∧ s.users[i]? = some .added ∧ s.comps = [i])

theorem Exact.step {s : State} (h : Exact s) (hl : LockInv s) (hc : OneAtATime s) (e : Event) : Exact (happen s e) := by
  cases e with
  | refresh =>
    obtain ⟨h1, h2⟩ := refStep_users s
    refine ⟨?_, ?_, ?_⟩
    · show ∀ i, i ∈ (refStep s).comps ↔ ∃ u, (refStep s).users[i]? = some u ∧ Out u
      rw [h1, h2]; exact h.mem
    · show ∀ (i : Nat) xs, (refStep s).users[i]? = some (.adding xs) ∨ (refStep s).users[i]? = some (.removing xs) → xs = (refStep s).comps
      rw [h1, h2]; exact h.mid
    · show (refStep s).ref = .waiting → _
      intro hw
      unfold refStep at hw
      cases hr : s.ref with
      | top => simp [hr] at hw; split at hw <;> simp at hw
      | draw => simp [hr] at hw
      | note => simp [hr] at hw
      | enter => simp [hr] at hw; split at hw <;> simp [hr] at hw
      | check =>
        simp [hr] at hw
        left; simp [happen, refStep, hr]; exact hw
      | waiting => simpa [happen, refStep, hr] using h.wait hr
      | woken => simp [hr] at hw; split at hw <;> simp [hr] at hw
  | user i =>
    show Exact (userStep s i)
    -- a step that does not change the list
    have keep : ∀ {s' : State} {u v : At}, s.users[i]? = some u → s'.users = s.users.set i v → s'.comps = s.comps →
        (Out v ↔ Out u) → (∀ xs, v = .adding xs ∨ v = .removing xs → xs = s.comps) → u ≠ .added →
        s'.ref = s.ref → (s.lock = none ∨ s'.lock = s.lock) → Exact s' := by
      intro s' u v hu hs hcm hv hn hne hr hlk
      refine ⟨fun j => ?_, fun j xs hj => ?_, fun hw => ?_⟩
      · rw [hcm, h.mem, hs, set_get hu]
        split
        · rename_i e; subst e
          constructor
          · rintro ⟨w, hw, ho⟩; rw [hu] at hw; cases hw; exact ⟨v, rfl, hv.2 ho⟩
          · rintro ⟨w, hw, ho⟩; cases hw; exact ⟨u, hu, hv.1 ho⟩
        · rfl
      · rw [hcm]
        rw [hs, set_get hu] at hj
        split at hj
        · simp at hj; exact hn xs hj
        · exact h.mid j xs hj
      · rw [hcm]
        rw [hr] at hw
        rcases h.wait hw with h' | ⟨j, hj, hj2, hj3⟩
        · exact Or.inl h'
        · right
          rcases hlk with hlk | hlk
          · rw [hlk] at hj; cases hj
          · refine ⟨j, by rw [hlk]; exact hj, ?_, hj3⟩
            rw [hs, set_get hu]
            split
            · rename_i e; subst e; rw [hu] at hj2; cases hj2; exact absurd rfl hne
            · exact hj2
    -- a step that changes the list: nobody else is in the middle
    have only : ∀ (xs : List Nat), s.users[i]? = some (.adding xs) ∨ s.users[i]? = some (.removing xs) →
        ∀ j ys, j ≠ i → ¬ (s.users[j]? = some (.adding ys) ∨ s.users[j]? = some (.removing ys)) :=
      fun xs hx j ys hj hy => hj (hc j i ⟨ys, hy⟩ ⟨xs, hx⟩)
    unfold userStep
    split
    · exact h
    · rename_i hu
      split
      · rename_i hl'; exact keep hu rfl rfl (by simp [Out]) (by simp) (by simp) rfl (Or.inl hl')
      · exact h
    · rename_i hu; exact keep hu rfl rfl (by simp [Out]) (by simp) (by simp) rfl (Or.inr rfl)
    · rename_i xs hu
      have hx := h.mid i xs (Or.inl hu)
      subst hx
      refine ⟨fun j => ?_, fun j ys hj => ?_, fun hw => ?_⟩
      · simp only [List.mem_cons, set_get hu]
        split
        · rename_i e; subst e; simp [Out]
        · rename_i e; rw [h.mem]; simp [e]
      · simp only [set_get hu] at hj
        split at hj
        · simp at hj
        · rename_i e; exact absurd hj (only _ (Or.inl hu) j ys e)
      · have hlk := (hl.user i _ hu).1 (by simp [Holds])
        right
        refine ⟨i, hlk, by simp [set_get hu], ?_⟩
        rcases h.wait hw with h' | ⟨j, hj, hj2, _⟩
        · simp [h']
        · rw [hlk] at hj; simp at hj; subst hj; rw [hu] at hj2; cases hj2
    · rename_i hu
      refine ⟨fun j => ?_, fun j ys hj => ?_, fun hw => ?_⟩
      · rw [h.mem, set_get hu]
        split
        · rename_i e; subst e; simp [Out, hu]
        · rfl
      · simp only [set_get hu] at hj
        split at hj
        · simp at hj
        · exact h.mid j ys hj
      · left
        simp only at hw
        split at hw
        · cases hr : s.ref <;> simp [hr, notify] at hw
        · rename_i hne
          rcases h.wait hw with h' | ⟨j, hj, hj2, hj3⟩
          · exact h'
          · rw [hj3] at hne; simp at hne
    · rename_i hu; exact keep hu rfl rfl (by simp [Out]) (by simp) (by simp) rfl (Or.inr rfl)
    · rename_i xs hu
      have hx := h.mid i xs (Or.inr hu)
      subst hx
      refine ⟨fun j => ?_, fun j ys hj => ?_, fun hw => ?_⟩
      · simp only [List.mem_filter, set_get hu]
        split
        · rename_i e; subst e; simp [Out]
        · rename_i e; rw [h.mem]; simp [e]
      · simp only [set_get hu] at hj
        split at hj
        · simp at hj
        · rename_i e; exact absurd hj (only _ (Or.inr hu) j ys e)
      · rcases h.wait hw with h' | ⟨j, hj, hj2, hj3⟩
        · left; simp [h']
        · have hij : j ≠ i := by rintro rfl; rw [hu] at hj2; cases hj2
          have : i ∈ s.comps := (h.mem i).2 ⟨_, hu, by simp [Out]⟩
          rw [hj3] at this; simp at this; exact absurd this.symm hij
    · exact h

theorem Exact.start (n : Nat) : Exact (start n) :=
  ⟨fun i => ⟨fun h => (by cases h), fun ⟨u, hu, ho⟩ => by rw [start_idle hu] at ho; cases ho⟩,
    fun i xs h => by rcases h with h | h <;> (have := start_idle h; simp at this), fun h => by simp [Live.start] at h⟩

theorem Exact.run {s : State} (h : Exact s) (hl : LockInv s) (es : List Event) (hc : Calm s es) : Exact (liveRun s es) := by
  induction es generalizing s with
  | nil => exact h
  | cons e es ih => exact ih (h.step hl hc.1 e) (hl.step e) hc.2

/-! ### Drawing -/

/-- What is known of the screen. -/
def Screen (s : State) : Prop :=
  match s.ref with
  | .note => s.drawn = [] ∨ s.comps ≠ []
  | .enter | .check => s.drawn = [] ∧ s.empty = true
  | .waiting | .woken => s.drawn = [] ∧ s.empty = true
  | _ => s.empty = true → s.drawn = []

theorem Screen.step {s : State} (h : Screen s) (e : Event) (he : ¬ TakenAtNote s e) : Screen (happen s e) := by
  cases e with
  | refresh =>
    show Screen (refStep s)
    unfold refStep
    split
    · rename_i hr
      simp only [Screen, hr] at h
      by_cases hd : s.comps ≠ [] ∨ s.empty = false
      · simp only [hd, if_true, Screen]; exact h
      · simp only [hd, if_false, Screen]
        simp at hd
        exact ⟨h hd.2, hd.2⟩
    · simp only [Screen]; by_cases hc : s.comps = [] <;> simp [hc]
    · rename_i hr
      simp only [Screen, hr] at h ⊢
      intro hc
      rcases h with h | h
      · exact h
      · simp at hc; exact absurd hc h
    · rename_i hr
      simp only [Screen, hr] at h
      split
      · simp only [Screen]; exact h
      · simp only [Screen, hr]; exact h
    · rename_i hr
      simp only [Screen, hr] at h
      by_cases hc : s.comps = []
      · simp only [hc, if_true, Screen]; exact h
      · simp only [hc, if_false, Screen]; exact fun _ => h.1
    · exact h
    · rename_i hr
      simp only [Screen, hr] at h
      split
      · simp only [Screen]; exact fun _ => h.1
      · simp only [Screen, hr]; exact h
  | user i =>
    show Screen (userStep s i)
    -- the drawing thread is where it was, and the list is not emptied while it is noted
    have keep : ∀ s' : State, s'.ref = s.ref → s'.drawn = s.drawn → s'.empty = s.empty → (s.ref = .note → s.comps ≠ [] → s'.comps ≠ []) → Screen s' := by
      intro s' hr hd hem hc
      unfold Screen at h ⊢
      rw [hr, hd, hem]
      cases hs : s.ref <;> simp only [hs] at h ⊢ <;> first | exact h | exact h.imp_right (hc hs)
    unfold userStep
    split
    · exact h
    · split
      · exact keep _ rfl rfl rfl (fun _ h => h)
      · exact h
    · exact keep _ rfl rfl rfl (fun _ h => h)
    · exact keep _ rfl rfl rfl (fun _ _ => by simp)
    · rename_i hu
      by_cases hlen : s.comps.length = 1 ∧ s.ref = .waiting
      · simp only [Screen, hlen, if_true, notify] at h ⊢
        exact h
      · refine keep _ ?_ rfl rfl (fun _ h => h)
        simp only [notify]
        split
        · split
          · exact absurd ⟨‹_›, ‹_›⟩ hlen
          · rfl
        · rfl
    · exact keep _ rfl rfl rfl (fun _ h => h)
    · rename_i xs hu
      refine keep _ rfl rfl rfl (fun hn => ?_)
      exact absurd ⟨hn, xs, hu⟩ he
    · exact h

theorem Screen.run {s : State} (h : Screen s) (es : List Event) (hc : Noted s es) : Screen (liveRun s es) := by
  induction es generalizing s with
  | nil => exact h
  | cons e es ih => exact ih (h.step e hc.1) hc.2

/-- Once the screen is right, it stays so. -/
theorem redraw_stays (s : State) (h : s.drawn = s.comps) (n : Nat) : (redraw s n).drawn = s.comps := by
  induction n generalizing s with
  | zero => exact h
  | succ n ih =>
    have h2 := (refStep_users s).2
    have : (happen s .refresh).drawn = (happen s .refresh).comps := by
      show (refStep s).drawn = (refStep s).comps
      rw [h2]
      unfold refStep
      repeat' split
      all_goals first | exact h | rfl
    rw [redraw, ih _ this]; exact h2

theorem redraw_four (s : State) (hs : Screen s) (hw : s.ref = .waiting → s.comps = []) (hlk : s.lock = none ∨ s.ref = .check) (n : Nat) (hn : 4 ≤ n) :
    (redraw s n).drawn = s.comps := by
  obtain ⟨m, rfl⟩ : ∃ m, n = m + 4 := ⟨n - 4, by omega⟩
  obtain ⟨comps, lock, users, ref, empty, drawn⟩ := s
  have key : ∀ k ≤ 4, (redraw ⟨comps, lock, users, ref, empty, drawn⟩ k).drawn = comps →
      (redraw ⟨comps, lock, users, ref, empty, drawn⟩ (m + 4)).drawn = comps := by
    intro k hk h
    have hcomp : ∀ (s : State) k, (redraw s k).comps = s.comps := by
      intro s k
      induction k generalizing s with
      | zero => rfl
      | succ k ih => rw [redraw, ih]; exact (refStep_users s).2
    have hadd : ∀ (s : State) a b, redraw s (a + b) = redraw (redraw s a) b := by
      intro s a b
      induction a generalizing s with
      | zero => simp [redraw]
      | succ a ih => rw [Nat.succ_add]; exact ih _
    have : m + 4 = k + (m + 4 - k) := by omega
    rw [this, hadd, redraw_stays _ (by rw [h, hcomp]), hcomp]
  cases ref with
  | top =>
    by_cases hc : comps ≠ [] ∨ empty = false
    · refine key 2 (by omega) ?_
      simp [redraw, happen, refStep, hc]
    · simp at hc
      refine key 0 (by omega) ?_
      simp only [Screen] at hs
      simp [redraw, hc, hs hc.2]
  | draw => exact key 1 (by omega) (by simp [redraw, happen, refStep])
  | note =>
    by_cases hc : comps = []
    · refine key 0 (by omega) ?_
      simp only [Screen] at hs
      simp [redraw, hc]; exact hs.resolve_right (by simp [hc])
    · refine key 3 (by omega) ?_
      simp [redraw, happen, refStep, hc]
  | enter =>
    have hl : lock = none := by simpa using hlk
    subst hl
    by_cases hc : comps = []
    · refine key 0 (by omega) ?_
      simp only [Screen] at hs; simp [redraw, hc, hs.1]
    · refine key 4 (by omega) ?_
      simp [redraw, happen, refStep, hc]
  | check =>
    by_cases hc : comps = []
    · refine key 0 (by omega) ?_
      simp only [Screen] at hs; simp [redraw, hc, hs.1]
    · refine key 3 (by omega) ?_
      simp [redraw, happen, refStep, hc]
  | waiting =>
    have hc := hw rfl
    simp only at hc
    refine key 0 (by omega) ?_
    simp only [Screen] at hs; simp [redraw, hc, hs.1]
  | woken =>
    have hl : lock = none := by simpa using hlk
    subst hl
    by_cases hc : comps = []
    · refine key 0 (by omega) ?_
      simp only [Screen] at hs; simp [redraw, hc, hs.1]
    · refine key 3 (by omega) ?_
      simp [redraw, happen, refStep, hc]

/-- C101, if no two threads change the list at the same time: a piece is in the list while it is being shown, and otherwise only for the moments in
which it is put there or taken away. -/
theorem display_shows_partial (n : Nat) (es : List Event) (hc : Calm (start n) es) :
    let s := liveRun (start n) es
    (∀ i, Showing s i → i ∈ s.comps) ∧
    (∀ i ∈ s.comps, Showing s i ∨ s.users[i]? = some .added ∨ ∃ xs, s.users[i]? = some (.removing xs)) := by
  intro s
  have h : Exact s := (Exact.start n).run (LockInv.start n) es hc
  refine ⟨fun i hi => (h.mem i).2 ⟨_, hi, by simp [Out]⟩, fun i hi => ?_⟩
  obtain ⟨u, hu, ho⟩ := (h.mem i).1 hi
  cases u with
  | added => exact Or.inr (Or.inl hu)
  | shown => exact Or.inl hu
  | removing xs => exact Or.inr (Or.inr ⟨xs, hu⟩)
  | _ => cases ho

/-- C101, if moreover nothing is taken away between a drawing and the note about it: when all threads are before, in or after `show`, then four steps of
the drawing thread later, and from then on, exactly the pieces that are being shown are on the screen. -/
theorem display_draws_partial (n : Nat) (es : List Event) (hc : Calm (start n) es) (hn : Noted (start n) es)
    (hq : ∀ (i : Nat) (u : At), (liveRun (start n) es).users[i]? = some u → u = .idle ∨ u = .shown ∨ u = .gone) (k : Nat) (hk : 4 ≤ k) :
    ∀ i, i ∈ (redraw (liveRun (start n) es) k).drawn ↔ Showing (liveRun (start n) es) i := by
  have h : Exact (liveRun (start n) es) := (Exact.start n).run (LockInv.start n) es hc
  have hs : Screen (liveRun (start n) es) := Screen.run (by simp [Screen, start]) es hn
  have hl : LockInv (liveRun (start n) es) := (LockInv.start n).run es
  have hfree : ∀ j, (liveRun (start n) es).lock ≠ some (.user j) := by
    intro j hj
    have hjl := hl.bound j hj
    have hw := (hl.user j _ (List.getElem?_eq_getElem hjl)).2 hj
    rcases hq j _ (List.getElem?_eq_getElem hjl) with h' | h' | h' <;> rw [h'] at hw <;> cases hw
  have hlk : (liveRun (start n) es).lock = none ∨ (liveRun (start n) es).ref = .check := by
    cases hh : (liveRun (start n) es).lock with
    | none => exact Or.inl rfl
    | some o =>
      cases o with
      | user j => exact absurd hh (hfree j)
      | refresher => exact Or.inr (hl.ref.2 hh)
  intro i
  rw [redraw_four _ hs (fun hw => (h.wait hw).resolve_right (fun ⟨j, hj, _⟩ => hfree j hj)) hlk k hk, h.mem]
  constructor
  · rintro ⟨u, hu, ho⟩
    rcases hq i u hu with h' | h' | h'
    · subst h'; cases ho
    · subst h'; exact hu
    · subst h'; cases ho
  · intro hi; exact ⟨_, hi, by simp [Out]⟩

/-! ### Other runs -/

def us (is : List Nat) : List Event := is.map .user

/-- C101 fails: a piece is put on display while another is being taken away, and is lost. -/
theorem display_lost_violated :
    let s := liveRun (start 2) (us [0, 0, 0, 0, 0, 1, 1, 1, 1, 0])
    Showing s 1 ∧ s.comps = [] ∧ s.users = [.gone, .shown] := by decide

/-- C101 fails: two pieces are taken away at the same time, and one of them stays; it is drawn for ever. -/
theorem display_stays_violated :
    let s := liveRun (start 2) (us [0, 0, 0, 0, 1, 1, 1, 1, 0, 1, 0, 1])
    s.users = [.gone, .gone] ∧ s.comps = [0] ∧ ∀ k, 4 ≤ k → (redraw s k).drawn = [0] := by
  refine ⟨by decide, by decide, fun k hk => ?_⟩
  exact redraw_four _ (by unfold Screen; split <;> first | (rename_i h; revert h; decide) | decide) (by decide) (by decide) k hk

/-- C101 fails, also if no two threads use the display at the same time: a piece is taken away just after it was drawn; the drawing thread then waits,
and the piece stays on the screen. -/
theorem display_stale_violated :
    let s := liveRun (start 1) (us [0, 0, 0, 0, 0] ++ [.refresh, .refresh, .user 0, .refresh, .refresh])
    s.users = [.gone] ∧ s.comps = [] ∧ ∀ k, (redraw s k).drawn = [0] := by
  refine ⟨by decide, by decide, fun k => ?_⟩
  have hw : ∀ (s : State) k, s.ref = .waiting → redraw s k = s := by
    intro s k hr
    induction k with
    | zero => rfl
    | succ k ih => rw [redraw]; simp [happen, refStep, hr]; exact ih
  match k with
  | 0 => decide
  | 1 => decide
  | k + 2 =>
    show (redraw (happen (happen _ .refresh) .refresh) k).drawn = [0]
    rw [hw _ k (by decide)]
    decide

/-- C101 fails: while a piece is taken away the list is emptied, the drawing thread waits, and nobody notifies it when the list is there again: three
pieces are shown, none is on the screen, and none ever will be. -/
theorem display_frozen_violated :
    let s := liveRun (start 5) (us [0, 0, 0, 0, 0, 1, 1, 1, 1, 2, 2, 2, 2, 1, 0] ++ List.replicate 6 .refresh ++ us [1, 3, 3, 3, 3, 4, 4, 4, 4])
    Showing s 2 ∧ Showing s 3 ∧ Showing s 4 ∧ s.comps = [4, 3, 2, 0] ∧ ∀ k, (redraw s k).drawn = [] := by
  refine ⟨by decide, by decide, by decide, by decide, fun k => ?_⟩
  have hw : ∀ (s : State) k, s.ref = .waiting → redraw s k = s := by
    intro s k hr
    induction k with
    | zero => rfl
    | succ k ih => rw [redraw]; simp [happen, refStep, hr]; exact ih
  rw [hw _ k (by decide)]
  decide

/-! ### Cases -/

/-- Two threads, one after the other in the list, drawn in between. -/
def quiet : List Event := us [0, 0, 0, 0] ++ [.refresh, .refresh, .refresh] ++ us [1, 1, 1, 1, 0, 0]

def midB (s : State) (i : Nat) : Bool :=
  match s.users[i]? with
  | some (.adding _) | some (.removing _) => true
  | _ => false

theorem one_of {s : State} (h : ∀ i < s.users.length, ∀ j < s.users.length, midB s i = true → midB s j = true → i = j) : OneAtATime s := by
  have hm : ∀ i, MidUpdate s i → i < s.users.length ∧ midB s i = true := by
    rintro i ⟨xs, hx | hx⟩ <;> exact ⟨lt_of_get hx, by simp [midB, hx]⟩
  exact fun i j hi hj => h i (hm i hi).1 j (hm j hj).1 (hm i hi).2 (hm j hj).2

example : Calm (start 2) quiet := by
  simp only [quiet, us, List.map, List.cons_append, List.nil_append]
  repeat (first | exact one_of (by decide) | refine ⟨one_of (by decide), ?_⟩)

example : Noted (start 2) quiet := by
  simp only [quiet, us, List.map, List.cons_append, List.nil_append]
  repeat (first | exact trivial | refine ⟨id, ?_⟩ | refine ⟨fun h => absurd h.1 (by decide), ?_⟩)

example : Showing (liveRun (start 2) quiet) 1 ∧ (redraw (liveRun (start 2) quiet) 4).drawn = [1] := by decide

end Live
end Pkm
