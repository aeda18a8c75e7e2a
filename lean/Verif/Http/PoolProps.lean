import Verif.Http.Pool
set_option linter.unusedVariables false
set_option linter.unusedSimpArgs false
/-
Property C68: connections are used by one request at a time, answers belong to their requests, and nothing is left open.
-/
namespace Pkm.Http.Pool

/-- The connections that exist. -/
def ids (s : State) : List Nat := s.idle.map (·.id) ++ (s.inUse.map (·.2.id) ++ s.gone.map (·.id))

structure Inv (s : State) : Prop where
  nodup : (ids s).Nodup
  small : ∀ i, i ∈ ids s → i < s.fresh
  all : ∀ i, i < s.fresh → i ∈ ids s
  users : (s.inUse.map (·.1)).Nodup
  bounded : s.idle.length ≤ s.cap
  closedIdle : s.closed = true → s.idle = []
  goneClosed : ∀ c ∈ s.gone, c.closed = true

theorem useConn_id (c : Conn) (w : Wire) (all : Bool) : (useConn c w all).1.id = c.id := by
  unfold useConn request
  by_cases hb : c.busy
  · simp [hb]
  · cases w <;> simp [hb]
    by_cases hu : c.unread <;> simp [hu]

/-- A list of pairs with distinct keys is the found one and the rest. -/
theorem find_perm (l : List (Nat × Conn)) (u : Nat) (p : Nat × Conn) (hn : (l.map (·.1)).Nodup)
    (h : l.find? (fun q => q.1 == u) = some p) : l.Perm (p :: l.filter (fun q => q.1 != u)) := by
  induction l with
  | nil => simp at h
  | cons q l ih =>
    simp only [List.map_cons, List.nodup_cons] at hn
    by_cases hq : q.1 = u
    · simp [List.find?, hq] at h
      subst h
      have : l.filter (fun x => x.1 != u) = l := by
        apply List.filter_eq_self.2
        intro x hx
        have : x.1 ≠ u := by
          rintro e
          exact hn.1 (by rw [hq, ← e]; exact List.mem_map_of_mem hx)
        simp [this]
      simp [hq, this]
    · have hf : l.find? (fun q => q.1 == u) = some p := by
        have hq' : (q.1 == u) = false := by simpa using hq
        simpa [List.find?, hq'] using h
      have := ih hn.2 hf
      rw [List.filter_cons_of_pos (by simp [hq])]
      exact (List.Perm.cons q this).trans (List.Perm.swap _ _ _)

theorem inv_init (cap : Nat) : Inv { cap := cap } :=
  ⟨by simp [ids], by simp [ids], by simp, by simp, by simp, by simp, by simp⟩

theorem inv_step (s : State) (h : Inv s) (e : Step) : Inv (step s e).1 := by
  cases e with
  | take u =>
    simp only [step]
    by_cases hu : s.inUse.any (fun p => p.1 == u) = true
    · simpa [hu] using h
    · rw [if_neg hu]
      have hu' : u ∉ s.inUse.map (·.1) := by
        intro hc
        obtain ⟨p, hp, e⟩ := List.mem_map.1 hc
        exact hu (List.any_eq_true.2 ⟨p, hp, by simp [e]⟩)
      unfold acquire
      by_cases hc : s.closed = true
      · simpa [hc] using h
      · rw [if_neg hc]
        cases hl : s.idle.getLast? with
        | some c =>
          simp only
          have hs : s.idle = s.idle.dropLast ++ [c] := by
            obtain ⟨l, e⟩ := List.getLast?_eq_some_iff.1 hl
            rw [e, List.dropLast_concat]
          have hp : (ids { s with idle := s.idle.dropLast, inUse := (u, c) :: s.inUse }).Perm (ids s) := by
            simp only [ids, List.map_cons]
            conv => rhs; rw [hs]
            simp only [List.map_append, List.map_cons, List.map_nil, List.append_assoc, List.cons_append, List.nil_append]
            rfl
          refine ⟨hp.nodup_iff.2 h.nodup, fun i hi => h.small i (hp.mem_iff.1 hi), fun i hi => hp.mem_iff.2 (h.all i hi), ?_, ?_, ?_,
            h.goneClosed⟩
          · simpa using ⟨by simpa using hu', h.users⟩
          · have := h.bounded
            simp only [List.length_dropLast]; omega
          · intro hc'; exact absurd hc' hc
        | none =>
          simp only
          have hs : s.idle = [] := by simpa using hl
          have hp : (ids { s with fresh := s.fresh + 1, inUse := (u, { id := s.fresh }) :: s.inUse }) = s.fresh :: ids s := by
            simp [ids, hs]
          refine ⟨?_, ?_, ?_, ?_, h.bounded, h.closedIdle, h.goneClosed⟩
          · rw [hp]
            exact List.nodup_cons.2 ⟨fun hi => absurd (h.small _ hi) (by omega), h.nodup⟩
          · intro i hi
            rw [hp] at hi
            rcases List.mem_cons.1 hi with rfl | hi
            · simp
            · have := h.small i hi; simp only; omega
          · intro i hi
            rw [hp]
            simp only at hi
            by_cases e : i = s.fresh
            · simp [e]
            · exact List.mem_cons_of_mem _ (h.all i (by omega))
          · simpa using ⟨by simpa using hu', h.users⟩
  | use u w all =>
    simp only [step]
    cases hf : s.inUse.find? (fun p => p.1 == u) with
    | none => simpa using h
    | some p =>
      simp only
      have hperm := find_perm s.inUse u p h.users hf
      have hid := useConn_id p.2 w all
      generalize (useConn p.2 w all).1 = c at hid
      have hids : (ids s).Perm (s.idle.map (·.id) ++ (c.id :: ((s.inUse.filter (fun q => q.1 != u)).map (·.2.id) ++ s.gone.map (·.id)))) := by
        simp only [ids]
        refine List.Perm.append_left _ ?_
        have := (hperm.map (·.2.id)).append_right (s.gone.map (·.id))
        simpa [hid] using this
      have husers : ((s.inUse.filter (fun q => q.1 != u)).map (·.1)).Nodup :=
        List.Sublist.nodup (List.Sublist.map _ List.filter_sublist) h.users
      have hnot : ¬ s.idle.any (fun d => d.id == c.id) = true := by
        intro hc
        obtain ⟨d, hd, e⟩ := List.any_eq_true.1 hc
        have hn := hids.nodup_iff.1 h.nodup
        rw [List.nodup_append] at hn
        exact hn.2.2 _ (List.mem_map_of_mem hd) c.id (by simp) (by simpa using e)
      unfold putBack
      simp only [hnot, if_false]
      by_cases hc : (!s.closed && decide (s.idle.length < s.cap)) = true
      · simp only [hc, if_true]
        have hc' : s.closed = false ∧ s.idle.length < s.cap := by simpa using hc
        have hp : (ids { s with inUse := s.inUse.filter (fun q => q.1 != u), idle := s.idle ++ [c] }).Perm (ids s) := by
          refine List.Perm.trans ?_ hids.symm
          simp [ids]
        refine ⟨hp.nodup_iff.2 h.nodup, fun i hi => h.small i (hp.mem_iff.1 hi), fun i hi => hp.mem_iff.2 (h.all i hi), husers, ?_, ?_,
          h.goneClosed⟩
        · simp; omega
        · intro e; rw [hc'.1] at e; simp at e
      · simp only [hc, if_false]
        have hp : (ids { s with inUse := s.inUse.filter (fun q => q.1 != u), gone := { c with closed := true } :: s.gone }).Perm (ids s) := by
          refine List.Perm.trans ?_ hids.symm
          simp only [ids, List.map_cons]
          exact List.Perm.append_left _ List.perm_middle
        refine ⟨hp.nodup_iff.2 h.nodup, fun i hi => h.small i (hp.mem_iff.1 hi), fun i hi => hp.mem_iff.2 (h.all i hi), husers,
          h.bounded, h.closedIdle, ?_⟩
        intro d hd
        rcases List.mem_cons.1 hd with rfl | hd
        · rfl
        · exact h.goneClosed d hd
  | shut =>
    simp only [step, close]
    have hp : (ids { s with closed := true, idle := [], gone := s.idle.map (fun c => { c with closed := true }) ++ s.gone }).Perm (ids s) := by
      simp only [ids, List.map_nil, List.nil_append, List.map_append, List.map_map]
      have : (fun c : Conn => c.id) ∘ (fun c : Conn => { c with closed := true }) = fun c => c.id := rfl
      rw [this, ← List.append_assoc, ← List.append_assoc]
      exact List.Perm.append_right _ List.perm_append_comm
    refine ⟨hp.nodup_iff.2 h.nodup, fun i hi => h.small i (hp.mem_iff.1 hi), fun i hi => hp.mem_iff.2 (h.all i hi), h.users, ?_, ?_, ?_⟩
    · simp
    · simp
    · intro c hc
      rcases List.mem_append.1 hc with hc | hc
      · obtain ⟨d, _, rfl⟩ := List.mem_map.1 hc; rfl
      · exact h.goneClosed c hc

theorem inv_run (es : List Step) : ∀ s, Inv s → Inv (run s es).1 := by
  induction es with
  | nil => intro s h; exact h
  | cons e es ih => intro s h; exact ih _ (inv_step s h e)

/-- C68: at no time is a connection used by two users, or kept for reuse while it is used. For all interleavings of all users. -/
theorem pool_exclusive (cap : Nat) (es : List Step) :
    let s := (run { cap := cap } es).1
    (s.inUse.map (·.2.id)).Nodup ∧ ∀ p ∈ s.inUse, ∀ c ∈ s.idle, c.id ≠ p.2.id := by
  have h := (inv_run es _ (inv_init cap)).nodup
  simp only [ids, List.nodup_append] at h
  refine ⟨h.2.1.1, ?_⟩
  intro p hp c hc
  exact h.2.2 _ (List.mem_map_of_mem hc) _ (List.mem_append_left _ (List.mem_map_of_mem (f := fun q : Nat × Conn => q.2.id) hp))

/-- C68: never more connections than the limit are kept. -/
theorem pool_bounded (cap : Nat) (es : List Step) : (run { cap := cap } es).1.idle.length ≤ cap := by
  have h := (inv_run es _ (inv_init cap)).bounded
  have hc : ∀ (es : List Step) (s : State), (run s es).1.cap = s.cap := by
    intro es
    induction es with
    | nil => intro s; rfl
    | cons e es ih =>
      intro s
      rw [run, ih]
      cases e with
      | take u =>
        simp only [step, acquire]
        split
        · rfl
        · split
          · rfl
          · rename_i h; revert h; split
            · simp
            · split <;> (intro h; simp at h; rw [← h.1])
      | use u w all =>
        simp only [step, putBack]
        split
        · rfl
        · split
          · rfl
          · split <;> rfl
      | shut => rfl
  rwa [hc] at h

/-- C68: once the pool is closed and nobody uses a connection, every connection ever made is closed. -/
theorem pool_closed (cap : Nat) (es : List Step) (h : (run { cap := cap } es).1.closed = true)
    (hu : (run { cap := cap } es).1.inUse = []) :
    ∀ i < (run { cap := cap } es).1.fresh, ∃ c ∈ (run { cap := cap } es).1.gone, c.id = i ∧ c.closed = true := by
  have hi := inv_run es _ (inv_init cap)
  intro i hlt
  have := hi.all i hlt
  simp only [ids, hi.closedIdle h, hu, List.map_nil, List.nil_append, List.mem_map] at this
  obtain ⟨c, hc, rfl⟩ := this
  exact ⟨c, hc, rfl, hi.goneClosed c hc⟩

/-- Two users at a time, one after the other, and the end. -/
example : let s := (run {} [.take 1, .take 2, .use 1 .answers true, .take 3, .use 2 .answers true, .use 3 .answers true, .shut]).1
    s.closed = true ∧ s.inUse = [] ∧ s.fresh = 2 ∧ s.gone.length = 2 := by decide

/-- A user that reads the body of the answer to the end, on a network that does not break connections while a request is sent. -/
def Careful : Step → Prop
  | .use _ w all => w ≠ .breaks ∧ all = true
  | _ => True

def Clean (s : State) : Prop :=
  (∀ c ∈ s.idle, c.busy = false ∧ c.unread = false) ∧ ∀ p ∈ s.inUse, p.2.busy = false ∧ p.2.unread = false

theorem clean_step (s : State) (h : Clean s) (e : Step) (he : Careful e) :
    Clean (step s e).1 ∧ ∀ r, (step s e).2 = some r → r = .own ∨ r = .lost := by
  cases e with
  | take u =>
    simp only [step]
    split
    · exact ⟨h, by simp⟩
    · unfold acquire
      by_cases hc : s.closed = true
      · simp only [hc, if_true]; exact ⟨h, by simp⟩
      · simp only [hc, if_false]
        cases hl : s.idle.getLast? with
        | some c =>
          refine ⟨⟨fun d hd => h.1 d (List.dropLast_subset _ hd), ?_⟩, by simp⟩
          intro p hp
          rcases List.mem_cons.1 hp with rfl | hp
          · exact h.1 c (List.mem_of_getLast? hl)
          · exact h.2 p hp
        | none =>
          refine ⟨⟨h.1, ?_⟩, by simp⟩
          intro p hp
          rcases List.mem_cons.1 hp with rfl | hp
          · exact ⟨rfl, rfl⟩
          · exact h.2 p hp
  | use u w all =>
    simp only [step]
    cases hf : s.inUse.find? (fun p => p.1 == u) with
    | none => exact ⟨h, by simp⟩
    | some p =>
      obtain ⟨h1, h2⟩ := h.2 p (List.mem_of_find?_eq_some hf)
      obtain ⟨hw, ha⟩ := he
      have hu : ((useConn p.2 w all).1.busy = false ∧ (useConn p.2 w all).1.unread = false) ∧
          ((useConn p.2 w all).2 = .own ∨ (useConn p.2 w all).2 = .lost) := by
        cases w with
        | breaks => exact absurd rfl hw
        | dropped => simp [useConn, request, h1]
        | answers => simp [useConn, request, h1, h2, ha]
      simp only
      refine ⟨?_, by rintro r ⟨⟩; exact hu.2⟩
      have hin : ∀ q ∈ s.inUse.filter (fun q => q.1 != u), q.2.busy = false ∧ q.2.unread = false :=
        fun q hq => h.2 q ((List.mem_filter.1 hq).1)
      unfold putBack
      split
      · exact ⟨h.1, hin⟩
      · split
        · refine ⟨?_, hin⟩
          intro c hc
          rcases List.mem_append.1 hc with hc | hc
          · exact h.1 c hc
          · simp at hc; subst hc; exact hu.1
        · exact ⟨h.1, hin⟩
  | shut => exact ⟨⟨by simp [step, close], h.2⟩, by simp [step]⟩

theorem clean_run (es : List Step) : ∀ s, Clean s → (∀ e ∈ es, Careful e) → ∀ r ∈ (run s es).2, r = .own ∨ r = .lost := by
  induction es with
  | nil => intro s _ _ r hr; simp [run] at hr
  | cons e es ih =>
    intro s h he r hr
    obtain ⟨h1, h2⟩ := clean_step s h e (he e (by simp))
    simp only [run, List.mem_append] at hr
    rcases hr with hr | hr
    · exact h2 r (by simpa using hr)
    · exact ih _ h1 (fun x hx => he x (by simp [hx])) r hr

/-- C68: if all users read their answers to the end and no connection breaks while a request is sent, every user gets the answer to the
own request, or a connection error if the server has closed the connection; for all interleavings. What is missing: bodies that are
not read (`pool_unread_violated`) and broken connections (`pool_broken_violated`). -/
theorem pool_answers_partial (cap : Nat) (es : List Step) (h : ∀ e ∈ es, Careful e) :
    ∀ r ∈ (run { cap := cap } es).2, r = .own ∨ r = .lost :=
  clean_run es _ ⟨by simp, by simp⟩ h

example : (∀ e ∈ [Step.take 1, .take 2, .use 1 .answers true, .use 2 .dropped true, .take 2, .use 2 .answers true], Careful e) ∧
    (run {} [.take 1, .take 2, .use 1 .answers true, .use 2 .dropped true, .take 2, .use 2 .answers true]).2 = [.own, .lost, .own] := by
  refine ⟨?_, by decide⟩
  intro e he
  simp only [List.mem_cons, List.not_mem_nil, or_false] at he
  rcases he with rfl | rfl | rfl | rfl | rfl | rfl <;> simp [Careful]

/-- C68 fails if a body is not read, as for every answer of `fetch_resource` with another status than 200 (hc 430-433): the next request
on that connection does not get its answer. -/
theorem pool_unread_violated (cap : Nat) (h : 0 < cap) (u v : Nat) :
    (run { cap := cap } [.take u, .use u .answers false, .take v, .use v .answers true]).2 = [.own, .garbled] := by
  simp [run, step, acquire, useConn, request, putBack, h]

/-- One request after the other, each answered by the server and read to the end. -/
def later (users : List Nat) : List Step := users.flatMap (fun u => [.take u, .use u .answers true])

/-- C68 fails if a connection breaks while a request is sent: the connection is put back, not closed, so that all further requests, as
long as they come one after the other, take it again and are refused. -/
theorem pool_broken_violated (cap : Nat) (h : 0 < cap) (u : Nat) (users : List Nat) :
    (run { cap := cap } ([.take u, .use u .breaks true] ++ later users)).2 = .lost :: users.map (fun _ => .cannotSend) := by
  have hl : ∀ (users : List Nat) (s : State), s.idle = [{ id := 0, busy := true }] → s.inUse = [] → s.closed = false → s.cap = cap →
      (run s (later users)).2 = users.map (fun _ => .cannotSend) := by
    intro users
    induction users with
    | nil => intro s _ _ _ _; rfl
    | cons v vs ih =>
      intro s h1 h2 h3 h4
      have := ih { s with idle := [{ id := 0, busy := true }] } rfl h2 h3 h4
      simp only [later, List.flatMap_cons, List.cons_append, List.nil_append, run, List.map_cons]
      simp only [later] at this
      simp [step, acquire, h1, h2, h3, h4, useConn, request, putBack, h] at this ⊢
      exact this
  have := hl users { cap := cap, idle := [{ id := 0, busy := true }], fresh := 1 } rfl rfl rfl rfl
  simp [run, step, acquire, useConn, request, putBack, h, this]

theorem clean_turn (s : State) (u : Nat) (hc : s.closed = false) (hcl : Clean s) (hu : s.inUse = []) (w : Wire) (hw : w ≠ .breaks) :
    (run s [.take u, .use u w true]).2 = [if w = .dropped then .lost else .own] ∧
      (run s [.take u, .use u w true]).1.closed = false ∧ Clean (run s [.take u, .use u w true]).1 ∧
      (run s [.take u, .use u w true]).1.inUse = [] := by
  have h1 := clean_step s hcl (.take u) trivial
  have h2 := clean_step _ h1.1 (.use u w true) ⟨hw, rfl⟩
  refine ⟨?_, ?_, h2.1, ?_⟩ <;> simp only [run, step, hu, List.any_nil, acquire, hc]
  · cases hl : s.idle.getLast? with
    | some c =>
      have hcc := hcl.1 c (List.mem_of_getLast? hl)
      cases w <;> simp_all [useConn, request]
    | none => cases w <;> simp_all [useConn, request]
  · cases hl : s.idle.getLast? <;> simp [putBack, hc] <;> split <;> (try split) <;> simp [hc]
  · cases hl : s.idle.getLast? <;> simp [putBack, hc] <;> split <;> (try split) <;> simp [hc]

/-- C68: a request is repeated as long as the server turns out to have closed the connection before, up to the limit of tries, and then
answered. The states are those of `pool_answers_partial` in which nobody else uses a connection. -/
theorem pool_retry_partial (n k : Nat) (h : k < n) : ∀ (s : State) (u : Nat), s.closed = false → Clean s → s.inUse = [] →
    (attempts n s u (List.replicate k .dropped ++ [.answers])).2 = some .own := by
  induction k generalizing n with
  | zero =>
    intro s u hc hcl hu
    cases n with
    | zero => omega
    | succ n =>
      have := clean_turn s u hc hcl hu .answers (by decide)
      simp [attempts, this.1]
  | succ k ih =>
    intro s u hc hcl hu
    cases n with
    | zero => omega
    | succ n =>
      have := clean_turn s u hc hcl hu .dropped (by decide)
      simp only [List.replicate_succ, List.cons_append, attempts, this.1, if_true]
      exact ih n (by omega) _ u this.2.1 this.2.2.1 this.2.2.2

/-- Three tries, two kept connections that the server has closed. -/
example : let s := (run {} [.take 1, .take 2, .use 1 .answers true, .use 2 .answers true]).1
    s.closed = false ∧ s.inUse = [] ∧ s.idle.length = 2 ∧ (attempts 3 s 5 [.dropped, .dropped, .answers]).2 = some .own := by decide

/-- The repetition does not help if the connection breaks while the request is sent: the second try takes the same connection, which
refuses the request. -/
theorem pool_retry_violated (n cap : Nat) (h : 0 < cap) (u : Nat) (ws : List Wire) :
    (attempts (n + 2) { cap := cap } u (.breaks :: .answers :: ws)).2 = some .cannotSend := by
  simp [attempts, run, step, acquire, useConn, request, putBack, h]

end Pkm.Http.Pool
