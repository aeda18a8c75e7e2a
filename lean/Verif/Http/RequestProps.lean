import Verif.Http.Request
import Verif.Http.UrlProps
set_option linter.unusedVariables false
set_option linter.unusedSimpArgs false
/-
C33: requests are bounded. C57: the requests follow the redirections.
-/
namespace Pkm
open Http

namespace Spec

/-- The redirections that were received. -/
def redirections (sent : List (Url × Reply)) : Nat :=
  (sent.filter (fun p => match p.2 with | .redirect _ => true | _ => false)).length

/-- The redirections that were followed by a further request. -/
def followed (sent : List (Url × Reply)) : Nat := redirections sent.dropLast

/-- Every request goes where the reply to the previous one says: to the location after a redirection, to the
same URL otherwise. -/
def Follows : List (Url × Reply) → Prop
  | (u, r) :: (v, r') :: rest =>
    (match r with
      | .redirect (some loc) => Http.redirect u loc = some v
      | .redirect none => False
      | _ => v = u) ∧ Follows ((v, r') :: rest)
  | _ => True

end Spec

namespace Http

theorem loop_bound (lim : Limits) (srv : Nat → Reply) (body : Nat → Body) (fuel k : Nat) (url : Url)
    (redirs retries : Nat) (thrown : Bool) (hr : redirs ≤ lim.redirects + 1)
    (hf : (lim.redirects + 1 - redirs) * lim.retries - retries < fuel) :
    (requestLoop lim srv body fuel k url redirs retries thrown).ending ≠ .unfinished ∧
    (requestLoop lim srv body fuel k url redirs retries thrown).sent.length ≤
      (lim.redirects + 1 - redirs) * lim.retries - retries ∧
    redirs + Spec.redirections (requestLoop lim srv body fuel k url redirs retries thrown).sent ≤ lim.redirects + 1 := by
  induction fuel generalizing k url redirs retries thrown with
  | zero => omega
  | succ fuel ih =>
    unfold requestLoop
    by_cases hc : retries < lim.retries ∧ redirs ≤ lim.redirects
    · rw [if_pos hc]
      have hm : (lim.redirects + 1 - redirs) * lim.retries = (lim.redirects - redirs) * lim.retries + lim.retries := by
        have : lim.redirects + 1 - redirs = (lim.redirects - redirs) + 1 := by omega
        rw [this, Nat.succ_mul]
      have again : ∀ (th : Bool) (rep : Reply), (match rep with | .redirect _ => False | _ => True) →
          ((requestLoop lim srv body fuel (k + 1) url redirs (retries + 1) th).after url rep).ending ≠ .unfinished ∧
          ((requestLoop lim srv body fuel (k + 1) url redirs (retries + 1) th).after url rep).sent.length ≤
            (lim.redirects + 1 - redirs) * lim.retries - retries ∧
          redirs + Spec.redirections ((requestLoop lim srv body fuel (k + 1) url redirs (retries + 1) th).after url rep).sent
            ≤ lim.redirects + 1 := by
        intro th rep hrep
        obtain ⟨i1, i2, i3⟩ := ih (k + 1) url redirs (retries + 1) th hr (by omega)
        refine ⟨i1, ?_, ?_⟩
        · simp only [Result.after, List.length_cons]; omega
        · have : Spec.redirections ((url, rep) :: (requestLoop lim srv body fuel (k + 1) url redirs (retries + 1) th).sent)
              = Spec.redirections (requestLoop lim srv body fuel (k + 1) url redirs (retries + 1) th).sent := by
            cases rep <;> simp_all [Spec.redirections]
          simp only [Result.after, this]; exact i3
      have one : ∀ (rep : Reply) (e : Ending), e ≠ .unfinished →
          e ≠ .unfinished ∧ [(url, rep)].length ≤ (lim.redirects + 1 - redirs) * lim.retries - retries ∧
          redirs + Spec.redirections [(url, rep)] ≤ lim.redirects + 1 := by
        intro rep e he
        refine ⟨he, by simp; omega, ?_⟩
        have : Spec.redirections [(url, rep)] ≤ 1 := by unfold Spec.redirections; exact List.length_filter_le _ _
        omega
      cases srv k with
      | connError => exact again thrown .connError trivial
      | otherError => exact one _ _ (by simp)
      | redirect loc =>
        cases loc with
        | none => exact one _ _ (by simp)
        | some loc =>
          simp only
          split
          · exact one _ _ (by simp)
          · cases Http.redirect url loc with
            | none => exact one _ _ (by simp)
            | some url' =>
              simp only
              obtain ⟨i1, i2, i3⟩ := ih (k + 1) url' (redirs + 1) 0 thrown (by omega) (by
                have : lim.redirects + 1 - (redirs + 1) = lim.redirects - redirs := by omega
                rw [this]; omega)
              have e : lim.redirects + 1 - (redirs + 1) = lim.redirects - redirs := by omega
              rw [e] at i2
              refine ⟨i1, ?_, ?_⟩
              · simp only [Result.after, List.length_cons]; omega
              · simp only [Result.after, Spec.redirections, List.filter_cons, if_true, List.length_cons]
                simp only [Spec.redirections] at i3; omega
      | answer st =>
        simp only
        split
        · exact one _ _ (by simp)
        · cases body k with
          | ok => exact one _ _ (by simp)
          | otherError => exact one _ _ (by simp)
          | connError => exact again true (.answer st) trivial
    · rw [if_neg hc]
      simp [Spec.redirections]
      exact hr

theorem loop_head (lim : Limits) (srv : Nat → Reply) (body : Nat → Body) (fuel k : Nat) (url : Url)
    (redirs retries : Nat) (thrown : Bool) :
    ∀ p ∈ (requestLoop lim srv body fuel k url redirs retries thrown).sent.head?, p = (url, srv k) := by
  intro p hp
  cases fuel with
  | zero => simp [requestLoop] at hp
  | succ fuel =>
    unfold requestLoop at hp
    split at hp
    · cases hs : srv k with
      | connError => rw [hs] at hp; simp [Result.after] at hp; exact hp.symm
      | otherError => rw [hs] at hp; simp at hp; exact hp.symm
      | redirect loc =>
        rw [hs] at hp
        cases loc with
        | none => simp at hp; exact hp.symm
        | some loc =>
          simp only at hp
          split at hp
          · simp at hp; exact hp.symm
          · split at hp <;> (simp [Result.after] at hp; exact hp.symm)
      | answer st =>
        rw [hs] at hp
        simp only at hp
        split at hp
        · simp at hp; exact hp.symm
        · split at hp <;> (simp [Result.after] at hp; exact hp.symm)
    · simp at hp

theorem follows_cons (u : Url) (r : Reply) (l : List (Url × Reply)) (hl : Spec.Follows l)
    (h : ∀ p ∈ l.head?, (match r with
      | .redirect (some loc) => Http.redirect u loc = some p.1
      | .redirect none => False
      | _ => p.1 = u)) : Spec.Follows ((u, r) :: l) := by
  cases l with
  | nil => trivial
  | cons p l =>
    obtain ⟨v, r'⟩ := p
    exact ⟨h (v, r') (by simp), hl⟩

theorem loop_follows (lim : Limits) (srv : Nat → Reply) (body : Nat → Body) (fuel k : Nat) (url : Url)
    (redirs retries : Nat) (thrown : Bool) :
    Spec.Follows (requestLoop lim srv body fuel k url redirs retries thrown).sent := by
  induction fuel generalizing k url redirs retries thrown with
  | zero => trivial
  | succ fuel ih =>
    unfold requestLoop
    split
    · cases hs : srv k with
      | connError =>
        exact follows_cons _ _ _ (ih _ _ _ _ _) (by
          intro p hp; have := loop_head _ _ _ _ _ _ _ _ _ p hp; rw [this])
      | otherError => trivial
      | redirect loc =>
        cases loc with
        | none => trivial
        | some loc =>
          simp only
          split
          · trivial
          · cases hr : Http.redirect url loc with
            | none => trivial
            | some url' =>
              exact follows_cons _ _ _ (ih _ _ _ _ _) (by
                intro p hp; have := loop_head _ _ _ _ _ _ _ _ _ p hp; rw [this]; exact hr)
      | answer st =>
        simp only
        split
        · trivial
        · cases body k with
          | ok => trivial
          | otherError => trivial
          | connError =>
            exact follows_cons _ _ _ (ih _ _ _ _ _) (by
              intro p hp; have := loop_head _ _ _ _ _ _ _ _ _ p hp; rw [this])
    · trivial

end Http

/-- C33: whatever the server (and the code that reads the response) does, a request ends after at most
`(max_redirects + 1) * max_connection_retries` connection attempts. -/
theorem request_bounded (lim : Limits) (srv : Nat → Reply) (body : Nat → Body) (url : Url) :
    (request lim srv body url).ending ≠ .unfinished ∧
    (request lim srv body url).sent.length ≤ (lim.redirects + 1) * lim.retries := by
  have := loop_bound lim srv body ((lim.redirects + 1) * lim.retries + 1) 0 url 0 0 false (by omega) (by simp)
  exact ⟨this.1, by simpa [request] using this.2.1⟩

/-- C33: it follows at most `max_redirects` redirections. -/
theorem request_redirects_bounded (lim : Limits) (srv : Nat → Reply) (body : Nat → Body) (url : Url) :
    Spec.followed (request lim srv body url).sent ≤ lim.redirects := by
  have h1 := (loop_bound lim srv body ((lim.redirects + 1) * lim.retries + 1) 0 url 0 0 false (by omega) (by simp)).2.2
  suffices hs : ∀ (fuel k : Nat) (u : Url) (redirs retries : Nat) (th : Bool), redirs ≤ lim.redirects →
      redirs + Spec.followed (requestLoop lim srv body fuel k u redirs retries th).sent ≤ lim.redirects by
    have := hs ((lim.redirects + 1) * lim.retries + 1) 0 url 0 0 false (by omega)
    simpa [request] using this
  have stop : ∀ (fuel k : Nat) (u : Url) (redirs retries : Nat) (th : Bool), lim.redirects < redirs →
      (requestLoop lim srv body fuel k u redirs retries th).sent = [] := by
    intro fuel k u redirs retries th h
    cases fuel with
    | zero => rfl
    | succ fuel => unfold requestLoop; rw [if_neg (by omega)]
  have one : ∀ (p : Url × Reply), Spec.followed [p] = 0 := fun p => rfl
  have more : ∀ (u : Url) (rep : Reply) (l : List (Url × Reply)), (match rep with | .redirect _ => False | _ => True) →
      Spec.followed ((u, rep) :: l) = Spec.followed l := by
    intro u rep l hrep
    cases l with
    | nil => rfl
    | cons p l => cases rep <;> simp_all [Spec.followed, Spec.redirections]
  intro fuel
  induction fuel with
  | zero => intro k u redirs retries th h; simp [requestLoop, Spec.followed, Spec.redirections]; exact h
  | succ fuel ih =>
    intro k u redirs retries th h
    unfold requestLoop
    split
    · cases srv k with
      | connError => simp only [Result.after]; rw [more _ _ _ trivial]; exact ih _ _ _ _ _ h
      | otherError => simp only [one]; omega
      | redirect loc =>
        cases loc with
        | none => simp only [one]; omega
        | some loc =>
          simp only
          split
          · simp only [one]; omega
          · cases Http.redirect u loc with
            | none => simp only [one]; omega
            | some u' =>
              simp only [Result.after]
              by_cases hlt : redirs + 1 ≤ lim.redirects
              · have := ih (k + 1) u' (redirs + 1) 0 th hlt
                have h2 : ∀ (l : List (Url × Reply)), Spec.followed ((u, .redirect (some loc)) :: l) ≤ 1 + Spec.followed l := by
                  intro l
                  cases l with
                  | nil => simp [Spec.followed, Spec.redirections]
                  | cons p l => simp [Spec.followed, Spec.redirections]; omega
                have := h2 (requestLoop lim srv body fuel (k + 1) u' (redirs + 1) 0 th).sent
                omega
              · rw [stop _ _ _ _ _ _ (by omega), one]; omega
      | answer st =>
        simp only
        split
        · simp only [one]; omega
        · cases body k with
          | ok => simp only [one]; omega
          | otherError => simp only [one]; omega
          | connError => simp only [Result.after]; rw [more _ _ _ trivial]; exact ih _ _ _ _ _ h
    · simp [Spec.followed, Spec.redirections]; exact h

/-- C57: the first request goes to the given URL and every further one where the last reply says. -/
theorem request_follows (lim : Limits) (srv : Nat → Reply) (body : Nat → Body) (url : Url) :
    (∀ p ∈ (request lim srv body url).sent.head?, p.1 = url) ∧ Spec.Follows (request lim srv body url).sent :=
  ⟨fun p hp => by rw [loop_head _ _ _ _ _ _ _ _ _ p hp], loop_follows _ _ _ _ _ _ _ _ _⟩

namespace Http

/-- Attempts that fail. -/
theorem loop_errors (lim : Limits) (srv : Nat → Reply) (body : Nat → Body) (n fuel k : Nat) (url : Url)
    (redirs retries : Nat) (thrown : Bool) (hr : redirs ≤ lim.redirects)
    (he : ∀ j, j < n → srv (k + j) = .connError) (hn : retries + n ≤ lim.retries) :
    (requestLoop lim srv body (fuel + n) k url redirs retries thrown).ending =
      (requestLoop lim srv body fuel (k + n) url redirs (retries + n) thrown).ending := by
  induction n generalizing k retries with
  | zero => rfl
  | succ n ih =>
    have h0 := he 0 (by omega)
    simp only [Nat.add_zero] at h0
    have e : fuel + (n + 1) = (fuel + n) + 1 := by omega
    rw [e]
    rw [requestLoop, if_pos (by omega), h0]
    simp only [Result.after]
    rw [ih (k + 1) (retries + 1) (fun j hj => by have := he (j + 1) (by omega); rw [← this]; congr 1; omega) (by omega)]
    congr 1
    · congr 1 <;> omega

end Http

namespace Spec

/-- The server answers from attempt `k` on: `rounds` says how many attempts fail before each redirection, then
`last` attempts fail before the final answer. -/
def Answers (srv : Nat → Reply) (st : Nat) : Nat → Url → List (Nat × Text) → Nat → Prop
  | k, _, [], last => (∀ j, j < last → srv (k + j) = .connError) ∧ srv (k + last) = .answer st
  | k, u, (n, loc) :: rounds, last =>
    (∀ j, j < n → srv (k + j) = .connError) ∧ srv (k + n) = .redirect (some loc) ∧ loc ≠ [] ∧
      ∃ v, Http.redirect u loc = some v ∧ Answers srv st (k + n + 1) v rounds last

/-- The number of the attempt that is answered. -/
def answeredAt : Nat → List (Nat × Text) → Nat → Nat
  | k, [], last => k + last
  | k, (n, _) :: rounds, last => answeredAt (k + n + 1) rounds last

end Spec

/-- C33: the limits are not lower than they say: a server that answers after at most `max_redirects`
redirections, with fewer than `max_connection_retries` failures in a row, is heard. -/
theorem request_reaches_answer (lim : Limits) (srv : Nat → Reply) (body : Nat → Body) (url : Url) (st : Nat)
    (rounds : List (Nat × Text)) (last : Nat) (h : Spec.Answers srv st 0 url rounds last)
    (hn : rounds.length ≤ lim.redirects) (hr : ∀ p ∈ rounds, p.1 < lim.retries) (hl : last < lim.retries)
    (hb : body (Spec.answeredAt 0 rounds last) = .ok) :
    (request lim srv body url).ending = .done (Spec.answeredAt 0 rounds last) st := by
  suffices hs : ∀ (rounds : List (Nat × Text)) (k redirs : Nat) (u : Url) (fuel : Nat),
      Spec.Answers srv st k u rounds last → redirs + rounds.length ≤ lim.redirects → (∀ p ∈ rounds, p.1 < lim.retries) →
      body (Spec.answeredAt k rounds last) = .ok → (lim.redirects + 1 - redirs) * lim.retries < fuel →
      (requestLoop lim srv body fuel k u redirs 0 false).ending = .done (Spec.answeredAt k rounds last) st from
    hs rounds 0 0 url _ h (by omega) hr hb (by simp)
  intro rounds
  induction rounds with
  | nil =>
    intro k redirs u fuel ha hn hr hb hf
    obtain ⟨h1, h2⟩ := ha
    have hm : (lim.redirects + 1 - redirs) * lim.retries ≥ lim.retries := by
      have : lim.redirects + 1 - redirs = (lim.redirects - redirs) + 1 := by simp at hn; omega
      rw [this, Nat.succ_mul]; omega
    obtain ⟨f, rfl⟩ : ∃ f, fuel = f + 1 + last := ⟨fuel - 1 - last, by omega⟩
    rw [loop_errors _ _ _ last _ _ _ _ _ _ (by simp at hn; omega) h1 (by omega)]
    rw [requestLoop, if_pos ⟨by omega, by simp at hn; omega⟩, h2]
    simp only [Bool.false_eq_true, if_false]
    simp only [Spec.answeredAt] at hb ⊢
    rw [hb]
  | cons p rounds ih =>
    intro k redirs u fuel ha hn hr hb hf
    obtain ⟨n, loc⟩ := p
    obtain ⟨h1, h2, h3, v, h4, h5⟩ := ha
    have hnl := hr (n, loc) List.mem_cons_self
    simp only at hnl
    simp only [List.length_cons] at hn
    have hm : (lim.redirects + 1 - redirs) * lim.retries = (lim.redirects + 1 - (redirs + 1)) * lim.retries + lim.retries := by
      have : lim.redirects + 1 - redirs = (lim.redirects + 1 - (redirs + 1)) + 1 := by omega
      rw [this, Nat.succ_mul]
    obtain ⟨f, rfl⟩ : ∃ f, fuel = f + 1 + n := ⟨fuel - 1 - n, by omega⟩
    rw [loop_errors _ _ _ n _ _ _ _ _ _ (by omega) h1 (by omega)]
    rw [requestLoop, if_pos ⟨by omega, by omega⟩, h2]
    have hne : loc.isEmpty = false := by cases loc <;> simp_all
    simp only [hne, Bool.false_eq_true, if_false, h4, Result.after]
    exact ih (k + n + 1) (redirs + 1) v f h5 (by omega) (fun p hp => hr p (List.mem_cons_of_mem _ hp)) hb (by omega)

/-- C33: with connection errors only, exactly `max_connection_retries` attempts are made. -/
theorem request_all_fail (lim : Limits) (srv : Nat → Reply) (body : Nat → Body) (url : Url)
    (h : ∀ k, srv k = .connError) :
    (request lim srv body url).ending = .raised .connectionFailed ∧
    (request lim srv body url).sent = List.replicate lim.retries (url, .connError) := by
  suffices hs : ∀ (n k retries fuel : Nat), retries + n = lim.retries → n < fuel →
      (requestLoop lim srv body fuel k url 0 retries false).ending = .raised .connectionFailed ∧
      (requestLoop lim srv body fuel k url 0 retries false).sent = List.replicate n (url, .connError) from
    hs lim.retries 0 0 _ (by omega) (by
      rw [Nat.succ_mul]; omega)
  intro n
  induction n with
  | zero =>
    intro k retries fuel h1 h2
    obtain ⟨f, rfl⟩ : ∃ f, fuel = f + 1 := ⟨fuel - 1, by omega⟩
    rw [requestLoop, if_neg (by omega)]
    simp
  | succ n ih =>
    intro k retries fuel h1 h2
    obtain ⟨f, rfl⟩ : ∃ f, fuel = f + 1 := ⟨fuel - 1, by omega⟩
    rw [requestLoop, if_pos (by omega), h k]
    obtain ⟨i1, i2⟩ := ih (k + 1) (retries + 1) f (by omega) (by omega)
    simp only [Result.after, List.replicate_succ]
    exact ⟨i1, by rw [i2]⟩

/-- Beyond C33: if the code that reads the response raises a `ConnectionError`, the request is sent a second
time although a response was received, and the user sees a `RuntimeError`. -/
theorem request_repeated_violated : ∃ (srv : Nat → Reply) (body : Nat → Body) (u : Url),
    (∀ k, srv k = .answer 200) ∧
    request (limits 3 2 (-1)) srv body u = ⟨.raised .yieldedTwice, [(u, .answer 200), (u, .answer 200)]⟩ :=
  ⟨fun _ => .answer 200, fun _ => .connError, ⟨httpScheme, ['h'], 80, ['/'], [], []⟩, fun _ => rfl, by decide⟩

/-- Beyond C33: a limit for redirections that is given as an argument is reported as a failed connection. -/
theorem request_message_violated : ∃ (srv : Nat → Reply) (u : Url),
    (∀ k, srv k = .redirect (some ['/', 'a'])) ∧
    (request (limits 3 2 1) srv (fun _ => .ok) u).ending = .raised .connectionFailed ∧
    (request (limits 3 2 (-1)) srv (fun _ => .ok) u).ending = .raised .maxRedirects :=
  ⟨fun _ => .redirect (some ['/', 'a']), ⟨httpScheme, ['h'], 80, ['/'], [], []⟩, fun _ => rfl, by decide, by decide⟩

/-- One failure, a redirection, one failure, the answer. -/
example :
    let srv : Nat → Reply := fun k => if k = 1 then .redirect (some ['/', 'b']) else if k = 3 then .answer 200 else .connError
    let u : Url := ⟨httpScheme, ['h'], 80, ['/', 'a'], [], []⟩
    Spec.Answers srv 200 0 u [(1, ['/', 'b'])] 1 ∧
    request (limits 3 2 (-1)) srv (fun _ => .ok) u =
      ⟨.done 3 200, [(u, .connError), (u, .redirect (some ['/', 'b'])), ({ u with path := ['/', 'b'] }, .connError),
        ({ u with path := ['/', 'b'] }, .answer 200)]⟩ := by
  refine ⟨⟨by decide, rfl, by decide, _, rfl, by decide, rfl⟩, by decide⟩

/-- The bound is reached. -/
example : (request (limits 1 2 (-1)) (fun k => if k = 1 then .redirect (some ['/']) else .connError) (fun _ => .ok)
    ⟨httpScheme, ['h'], 80, ['/', 'a'], [], []⟩).sent.length = (1 + 1) * 2 := by decide

end Pkm
