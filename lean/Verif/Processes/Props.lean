import Verif.Processes.Model
set_option linter.unusedSimpArgs false
set_option linter.unusedVariables false
/-
C102: what is reported of programs that are run.
-/
namespace Pkm
namespace Spec
open Processes

/-- The output: what was written before it was closed. -/
def pipeText : List Turn → List Nat
  | [] => []
  | .close :: _ => []
  | .write bs :: ts => bs ++ pipeText ts
  | _ :: ts => pipeText ts

/-- The exit code. -/
def exitCode : List Turn → Option Int
  | [] => none
  | .exit c :: _ => some c
  | _ :: ts => exitCode ts

/-- The lines of an output: together they are the output, none is empty, the end of line (10) is at most at their end, and is there for all but the last. -/
structure OutputLines (out : List Nat) (ls : List (List Nat)) : Prop where
  all : ls.flatten = out
  nonempty : ∀ l ∈ ls, l ≠ []
  inside : ∀ l ∈ ls, 10 ∉ l.dropLast
  ends : ∀ l ∈ ls.dropLast, l.getLast? = some 10

/-- The text `u` is the text `t` without the blanks around it. -/
structure WithoutBlanks (t u : Text) : Prop where
  around : ∃ a b, t = a ++ u ++ b ∧ (∀ c ∈ a, isSpace c = true) ∧ ∀ c ∈ b, isSpace c = true
  first : ∀ c, u.head? = some c → isSpace c = false
  last : ∀ c, u.getLast? = some c → isSpace c = false

/-- How many turns the reader had. -/
def reads (ts : List Turn) : Nat := ts.count .read

end Spec
open Spec
namespace Processes

theorem cut_some {bs l r : List Nat} (h : cut bs = some (l, r)) : bs = l ++ r ∧ l ≠ [] ∧ 10 ∉ l.dropLast ∧ l.getLast? = some 10 := by
  induction bs generalizing l r with
  | nil => simp [cut] at h
  | cons b bs ih =>
    simp only [cut] at h
    split at h
    · rename_i hb
      simp only [Option.some.injEq, Prod.mk.injEq] at h
      obtain ⟨rfl, rfl⟩ := h
      simp [hb]
    · rename_i hb
      obtain ⟨⟨l', r'⟩, hc, he⟩ := Option.map_eq_some_iff.1 h
      simp only [Prod.mk.injEq] at he
      obtain ⟨rfl, rfl⟩ := he
      obtain ⟨h1, h2, h3, h4⟩ := ih hc
      match l', h2 with
      | x :: l'', _ =>
      refine ⟨by simp [h1], by simp, ?_, ?_⟩
      · simp only [List.dropLast_cons_cons, List.mem_cons, not_or]
        exact ⟨fun e => hb e.symm, h3⟩
      · simpa using h4

theorem cut_none {bs : List Nat} : cut bs = none ↔ 10 ∉ bs := by
  induction bs with
  | nil => simp [cut]
  | cons b bs ih =>
    simp only [cut]
    split
    · rename_i hb; simp [hb]
    · rename_i hb
      simp only [Option.map_eq_none_iff, ih, List.mem_cons, not_or]
      exact ⟨fun h => ⟨fun e => hb e.symm, h⟩, fun h => h.2⟩

theorem written_closed {ts : List Turn} (h : .close ∈ ts) (us : List Turn) : pipeText (ts ++ us) = pipeText ts := by
  induction ts with
  | nil => cases h
  | cons t ts ih =>
    cases t with
    | close => rfl
    | write bs => simp only [List.cons_append, pipeText]; rw [ih (by simpa using h)]
    | exit c => simp only [List.cons_append, pipeText]; exact ih (by simpa using h)
    | read => simp only [List.cons_append, pipeText]; exact ih (by simpa using h)

theorem written_open {ts : List Turn} (h : .close ∉ ts) (us : List Turn) : pipeText (ts ++ us) = pipeText ts ++ pipeText us := by
  induction ts with
  | nil => rfl
  | cons t ts ih =>
    simp only [List.mem_cons, not_or] at h
    cases t with
    | close => exact absurd rfl h.1
    | write bs => simp only [List.cons_append, pipeText]; rw [ih h.2]; simp
    | exit c => simp only [List.cons_append, pipeText]; exact ih h.2
    | read => simp only [List.cons_append, pipeText]; exact ih h.2

theorem exitCode_append (ts us : List Turn) : exitCode (ts ++ us) = (exitCode ts).or (exitCode us) := by
  induction ts with
  | nil => simp [exitCode]
  | cons t ts ih => cases t <;> simp [exitCode, ih]

variable (decode : List Nat → Option Text)

/-- What has been told of some lines, and the empty ones after them. -/
def told (texts : List Text) (n : Nat) : List Event := texts.map (fun t => .line (strip t)) ++ List.replicate n (.line [])

/-- After any turns. -/
structure Inv (ts : List Turn) (s : State) : Prop where
  opened : s.isOpen = true ↔ .close ∉ ts
  code : s.code = exitCode ts
  lines : ∃ (done : List (List Nat)) (texts : List Text) (n : Nat),
    done.map decode = texts.map some ∧ (0 < n → .close ∈ ts ∧ s.pipe = []) ∧ (∀ l ∈ done, l ≠ []) ∧ (∀ l ∈ done, 10 ∉ l.dropLast) ∧
    (∀ l ∈ done.dropLast, l.getLast? = some 10) ∧ (∀ l ∈ done, l.getLast? = some 10 ∨ (.close ∈ ts ∧ s.pipe = [])) ∧
    match s.status with
    | .running => s.events = told texts n ∧ pipeText ts = done.flatten ++ s.pipe
    | .returned c => s.events = told texts n ++ [.exit c] ∧ .close ∈ ts ∧ exitCode ts = some c ∧ pipeText ts = done.flatten
    | .raised => s.events = told texts 0 ∧ ∃ l, l ≠ [] ∧ decode l = none ∧ 10 ∉ l.dropLast ∧ (l.getLast? = some 10 ∨ (.close ∈ ts ∧ s.pipe = [])) ∧
        pipeText ts = done.flatten ++ l ++ s.pipe ∧ ∀ l ∈ done, l.getLast? = some 10

theorem Inv.world {ts : List Turn} {s s' : State} (h : Inv decode ts s) (t : Turn) (ho : s'.isOpen = true ↔ .close ∉ ts ++ [t])
    (hc : s'.code = exitCode (ts ++ [t])) (he : s'.events = s.events) (hs : s'.status = s.status)
    (hp : ∃ more, s'.pipe = s.pipe ++ more ∧ pipeText (ts ++ [t]) = pipeText ts ++ more ∧ (.close ∈ ts → more = []))
    (hk : ∀ c, exitCode ts = some c → exitCode (ts ++ [t]) = some c) : Inv decode (ts ++ [t]) s' := by
  obtain ⟨more, hp, hw, hm⟩ := hp
  obtain ⟨done, texts, n, h1, h2, h3, h4, h5, h6, h7⟩ := h.lines
  have hcl : .close ∈ ts ∧ s.pipe = [] → .close ∈ ts ++ [t] ∧ s'.pipe = [] := fun h => ⟨by simp [h.1], by rw [hp, h.2, hm h.1]; rfl⟩
  refine ⟨ho, hc, done, texts, n, h1, fun hn => hcl (h2 hn), h3, h4, h5, fun l hl => (h6 l hl).imp id hcl, ?_⟩
  rw [hs]
  cases hst : s.status with
  | running =>
    rw [hst] at h7
    exact ⟨by rw [he]; exact h7.1, by rw [hw, hp, h7.2]; simp⟩
  | returned c =>
    rw [hst] at h7
    obtain ⟨h7, h8, h9, h10⟩ := h7
    exact ⟨by rw [he]; exact h7, by simp [h8], hk c h9, by rw [hw, hm h8, h10]; simp⟩
  | raised =>
    rw [hst] at h7
    obtain ⟨h7, l, hl1, hl2, hl3, hl4, hl5, hl6⟩ := h7
    exact ⟨by rw [he]; exact h7, l, hl1, hl2, hl3, hl4.imp id hcl, by rw [hw, hp, hl5]; simp, hl6⟩

theorem written_read (ts : List Turn) : pipeText (ts ++ [.read]) = pipeText ts := by
  by_cases h : .close ∈ ts
  · exact written_closed h _
  · rw [written_open h]; simp [pipeText]

theorem mem_dropLast_snoc {done : List (List Nat)} {l x : List Nat} (h : x ∈ (done ++ [l]).dropLast) : x ∈ done := by
  simpa using h

/-- A round. -/
theorem Inv.round {ts : List Turn} {s : State} (h : Inv decode ts s) (hr : s.status = .running) : Inv decode (ts ++ [.read]) (round decode s) := by
  have hclose : ∀ {p : Prop}, (.close ∈ ts ∧ p) → (.close ∈ ts ++ [.read] ∧ p) := fun h => ⟨by simp [h.1], h.2⟩
  have hopen : s.isOpen = true ↔ .close ∉ ts ++ [.read] := by rw [h.opened]; simp
  have hcode : s.code = exitCode (ts ++ [.read]) := by rw [h.code, exitCode_append]; simp [exitCode]
  obtain ⟨done, texts, n, h1, h2, h3, h4, h5, h6, h7⟩ := h.lines
  rw [hr] at h7
  obtain ⟨h7, h8⟩ := h7
  have hwr := written_read ts
  unfold Processes.round
  cases hrl : readline s with
  | none =>
    refine ⟨hopen, hcode, done, texts, n, h1, fun hn => hclose (h2 hn), h3, h4, h5, fun l hl => (h6 l hl).imp id hclose, ?_⟩
    simp only [hr]
    exact ⟨h7, by rw [hwr, h8]⟩
  | some lr =>
    obtain ⟨l, rest⟩ := lr
    -- what was read
    have hread : s.pipe = l ++ rest ∧ 10 ∉ l.dropLast ∧ ((l ≠ [] ∧ l.getLast? = some 10) ∨ (.close ∈ ts ∧ rest = [])) := by
      unfold readline at hrl
      cases hcut : cut s.pipe with
      | some r =>
        rw [hcut] at hrl
        simp only [Option.some.injEq] at hrl
        subst hrl
        obtain ⟨a, b, c, d⟩ := cut_some hcut
        exact ⟨a, c, Or.inl ⟨b, d⟩⟩
      | none =>
        rw [hcut] at hrl
        simp only at hrl
        split at hrl
        · cases hrl
        · rename_i ho
          simp only [Option.some.injEq, Prod.mk.injEq] at hrl
          obtain ⟨rfl, rfl⟩ := hrl
          refine ⟨by simp, fun hm => cut_none.1 hcut (List.dropLast_subset _ hm), Or.inr ⟨?_, rfl⟩⟩
          exact Classical.not_not.1 (fun hc => ho (h.opened.2 hc))
    obtain ⟨hpipe, hin, hend⟩ := hread
    match l with
    | [] =>
      have hcl : .close ∈ ts ∧ rest = [] := hend.resolve_left (fun h => h.1 rfl)
      have hpe : s.pipe = [] := by rw [hpipe, hcl.2]; rfl
      cases hco : s.code with
      | none =>
        simp only []
        refine ⟨hopen, by rw [← hcode, hco], done, texts, n + 1, h1, fun _ => hclose hcl, h3, h4, h5, fun l hl => Or.inr (hclose hcl), ?_⟩
        simp only [hr]
        exact ⟨by rw [h7]; simp [told, List.replicate_succ'], by rw [hwr, h8, hpe, hcl.2]⟩
      | some c =>
        simp only []
        refine ⟨hopen, by rw [← hcode, hco], done, texts, n, h1, fun _ => hclose hcl, h3, h4, h5, fun l hl => Or.inr (hclose hcl), ?_⟩
        exact ⟨by rw [h7], by simp [hcl.1], by rw [← hcode, hco], by rw [hwr, h8, hpe]; simp⟩
    | b :: l =>
      have hn0 : n = 0 := by
        rcases Nat.eq_zero_or_pos n with h0 | h0
        · exact h0
        · have := (h2 h0).2; rw [hpipe] at this; simp at this
      have hd10 : ∀ x ∈ done, x.getLast? = some 10 := fun x hx => (h6 x hx).resolve_right (fun h => by rw [hpipe] at h; simp at h)
      have hend' : (b :: l).getLast? = some 10 ∨ (.close ∈ ts ++ [.read] ∧ rest = []) := hend.imp (fun h => h.2) hclose
      cases hdec : decode (b :: l) with
      | none =>
        simp only [hdec]
        refine ⟨hopen, hcode, done, texts, n, h1, fun h => by omega, h3, h4, h5, fun x hx => Or.inl (hd10 x hx), ?_⟩
        exact ⟨by rw [h7, hn0], b :: l, by simp, hdec, hin, hend', by rw [hwr, h8, hpipe]; simp, hd10⟩
      | some t =>
        simp only [hdec]
        refine ⟨hopen, hcode, done ++ [b :: l], texts ++ [t], 0, by simp [h1, hdec], fun h => by omega, ?_, ?_, ?_, ?_, ?_⟩
        · intro x hx; rcases List.mem_append.1 hx with hx | hx
          · exact h3 x hx
          · simp at hx; simp [hx]
        · intro x hx; rcases List.mem_append.1 hx with hx | hx
          · exact h4 x hx
          · simp at hx; rw [hx]; exact hin
        · intro x hx; exact hd10 x (mem_dropLast_snoc hx)
        · intro x hx; rcases List.mem_append.1 hx with hx | hx
          · exact Or.inl (hd10 x hx)
          · simp at hx; rw [hx]; exact hend'
        · simp only [hr]
          exact ⟨by rw [h7, hn0]; simp [told], by rw [hwr, h8, hpipe]; simp⟩

theorem Inv.turn {ts : List Turn} {s : State} (ih : Inv decode ts s) (t : Turn) : Inv decode (ts ++ [t]) (turn decode s t) := by
    cases t with
    | read =>
      cases hs : s.status with
      | running => simp only [Processes.turn, hs]; exact ih.round decode hs
      | _ =>
        simp only [Processes.turn, hs]
        exact ih.world decode .read (by rw [ih.opened]; simp) (by rw [ih.code, exitCode_append]; simp [exitCode]) rfl rfl
          ⟨[], by simp, by rw [written_read]; simp, fun _ => rfl⟩ (fun c hc => by rw [exitCode_append, hc]; rfl)
    | close =>
      simp only [Processes.turn]
      refine ih.world decode .close (by simp) (by rw [ih.code, exitCode_append]; simp [exitCode]) rfl rfl ⟨[], by simp, ?_, fun _ => rfl⟩
        (fun c hc => by rw [exitCode_append, hc]; rfl)
      by_cases h : .close ∈ ts
      · rw [written_closed h]; simp
      · rw [written_open h]; simp [pipeText]
    | exit c =>
      have hw : pipeText (ts ++ [.exit c]) = pipeText ts ++ [] := by
        by_cases h : .close ∈ ts
        · rw [written_closed h]; simp
        · rw [written_open h]; simp [pipeText]
      simp only [Processes.turn]
      have hcode := ih.code
      cases hco : s.code with
      | none =>
        exact ih.world decode (.exit c) (by rw [ih.opened]; simp) (by rw [exitCode_append, ← hcode, hco]; rfl) rfl rfl ⟨[], by simp, hw, fun _ => rfl⟩
          (fun c hc => by rw [exitCode_append, hc]; rfl)
      | some d =>
        exact ih.world decode (.exit c) (by rw [ih.opened]; simp) (by rw [exitCode_append, ← hcode, hco]; rfl) rfl rfl ⟨[], by simp, hw, fun _ => rfl⟩
          (fun c hc => by rw [exitCode_append, hc]; rfl)
    | write bs =>
      simp only [Processes.turn]
      by_cases ho : s.isOpen = true
      · rw [if_pos ho]
        have hnc := ih.opened.1 ho
        exact ih.world decode (.write bs) (by simp only [ih.opened]; simp) (by simp only [ih.code, exitCode_append]; simp [exitCode]) rfl rfl
          ⟨bs, rfl, by rw [written_open hnc]; simp [pipeText], fun h => absurd h hnc⟩ (fun c hc => by rw [exitCode_append, hc]; rfl)
      · rw [if_neg ho]
        have hc : .close ∈ ts := Classical.not_not.1 (fun h => ho (ih.opened.2 h))
        exact ih.world decode (.write bs) (by rw [ih.opened]; simp) (by rw [ih.code, exitCode_append]; simp [exitCode]) rfl rfl
          ⟨[], by simp, by rw [written_closed hc]; simp, fun _ => rfl⟩ (fun c hc => by rw [exitCode_append, hc]; rfl)

theorem inv (ts : List Turn) : Inv decode ts (run decode start ts) := by
  have : ∀ (us ts : List Turn) (s : State), Inv decode us s → Inv decode (us ++ ts) (run decode s ts) := by
    intro us ts
    induction ts generalizing us with
    | nil => intro s h; simpa [run] using h
    | cons t ts ih =>
      intro s h
      have := ih (us ++ [t]) _ (h.turn decode t)
      simpa [run] using this
  exact this [] ts start ⟨by simp [start], rfl, [], [], 0, rfl, by simp, by simp, by simp, by simp, by simp, rfl, rfl⟩

/-! ### The end -/

theorem run_cons (s : State) (t : Turn) (ts : List Turn) : run decode s (t :: ts) = run decode (turn decode s t) ts := rfl

theorem turn_over (s : State) (t : Turn) (h : s.status ≠ .running) : (turn decode s t).status = s.status := by
  cases t with
  | write bs => simp only [turn]; split <;> rfl
  | close => rfl
  | exit c => simp only [turn]; split <;> rfl
  | read => cases hs : s.status with
    | running => exact absurd hs h
    | _ => simp only [turn, hs]

/-- Once over, it stays so. -/
theorem run_over (ts : List Turn) : ∀ s : State, s.status ≠ .running → (run decode s ts).status = s.status := by
  induction ts with
  | nil => intro s _; rfl
  | cons t ts ih =>
    intro s h
    have h1 := turn_over decode s t h
    rw [run_cons, ih _ (by rw [h1]; exact h), h1]

/-- Turns after the end of output and program. -/
theorem settle (ts : List Turn) : ∀ s : State, s.isOpen = false → s.code ≠ none → s.pipe.length < reads ts → (run decode s ts).status ≠ .running := by
  induction ts with
  | nil => intro s _ _ h; simp [reads] at h
  | cons t ts ih =>
    intro s ho hc hl
    rw [run_cons]
    by_cases hs : s.status ≠ .running
    · rw [run_over decode ts _ (by rw [turn_over decode s t hs]; exact hs), turn_over decode s t hs]; exact hs
    replace hs : s.status = .running := Classical.not_not.1 hs
    obtain ⟨c, hc'⟩ := Option.ne_none_iff_exists'.1 hc
    cases t with
    | write bs => simp only [turn, ho]; exact ih _ ho hc (by simpa [reads] using hl)
    | close => exact ih _ rfl hc (by simpa [reads, turn] using hl)
    | exit d => simp only [turn, hc']; exact ih _ ho hc (by simpa [reads] using hl)
    | read =>
      have hl' : s.pipe.length < reads ts + 1 := by simpa [reads] using hl
      simp only [turn, hs]
      unfold round
      cases hrl : readline s with
      | none =>
        unfold readline at hrl
        rw [ho] at hrl
        split at hrl <;> simp at hrl
      | some lr =>
        obtain ⟨l, rest⟩ := lr
        have hpipe : s.pipe = l ++ rest := by
          unfold readline at hrl
          cases hcut : cut s.pipe with
          | some r => rw [hcut] at hrl; simp only [Option.some.injEq] at hrl; subst hrl; exact (cut_some hcut).1
          | none => rw [hcut, ho] at hrl; simp at hrl; simp [← hrl.1, ← hrl.2]
        match l with
        | [] =>
          simp only [hc']
          rw [run_over]
          · simp
          · simp
        | b :: l =>
          have hlen : rest.length < reads ts := by rw [hpipe] at hl'; simp at hl'; omega
          cases hdec : decode (b :: l) with
          | none => simp only [hdec]; rw [run_over] <;> simp
          | some t => simp only [hdec]; exact ih _ ho hc hlen

theorem takeWhile_space {l : Text} : ∀ c ∈ l.takeWhile isSpace, isSpace c = true := by
  induction l with
  | nil => simp
  | cons a l ih =>
    intro c hc
    rw [List.takeWhile_cons] at hc
    split at hc
    · rcases List.mem_cons.1 hc with rfl | hc
      · assumption
      · exact ih c hc
    · cases hc

theorem dropWhile_first {l : Text} {c : Char} (h : (l.dropWhile isSpace).head? = some c) : isSpace c = false := by
  induction l with
  | nil => simp at h
  | cons a l ih =>
    rw [List.dropWhile_cons] at h
    split at h
    · exact ih h
    · rename_i ha; simp at h; subst h; simpa using ha

theorem dropWhile_last {l : Text} {c : Char} (h : (l.dropWhile isSpace).getLast? = some c) : l.getLast? = some c := by
  have e := List.takeWhile_append_dropWhile (p := isSpace) (l := l)
  obtain ⟨ys, hy⟩ := List.getLast?_eq_some_iff.1 h
  rw [hy] at e
  rw [← e, ← List.append_assoc]
  simp

end Processes
open Processes

/-- C102: what is reported of a line has no blanks around it, and is otherwise the line. -/
theorem proc_strips (t : Text) : WithoutBlanks t (strip t) := by
  unfold strip
  refine ⟨⟨t.takeWhile isSpace, (((t.dropWhile isSpace).reverse).takeWhile isSpace).reverse, ?_, takeWhile_space, ?_⟩, ?_, ?_⟩
  · rw [List.append_assoc, ← List.reverse_append, List.takeWhile_append_dropWhile, List.reverse_reverse, List.takeWhile_append_dropWhile]
  · intro c hc; exact takeWhile_space c (List.mem_reverse.1 hc)
  · intro c hc
    rw [List.head?_reverse] at hc
    have := dropWhile_last hc
    rw [List.getLast?_reverse] at this
    exact dropWhile_first this
  · intro c hc
    rw [List.getLast?_reverse] at hc
    exact dropWhile_first hc

example : WithoutBlanks [' ', 'a', ' ', 'b', '\n'] ['a', ' ', 'b'] := proc_strips [' ', 'a', ' ', 'b', '\n']

/-- C102: when the run has ended, the output is closed and the program has ended, with the code that is returned. What was reported is: every line of
the output, once, in order, without blanks around it; perhaps empty lines; and last the code. -/
theorem proc_reports (decode : List Nat → Option Text) (ts : List Turn) (c : Int) (h : (run decode start ts).status = .returned c) :
    exitCode ts = some c ∧ .close ∈ ts ∧
    ∃ (ls : List (List Nat)) (texts : List Text) (n : Nat), OutputLines (pipeText ts) ls ∧ ls.map decode = texts.map some ∧
      (run decode start ts).events = texts.map (fun t => .line (strip t)) ++ List.replicate n (.line []) ++ [.exit c] := by
  have hi := inv decode ts
  obtain ⟨done, texts, n, h1, h2, h3, h4, h5, h6, h7⟩ := hi.lines
  rw [h] at h7
  obtain ⟨h7, h8, h9, h10⟩ := h7
  exact ⟨h9, h8, done, texts, n, ⟨h10.symm, h3, h4, h5⟩, h1, h7⟩

/-- C102: at every moment before that, what was reported are the first lines, and, if the output is closed, perhaps empty lines after all of it. -/
theorem proc_reports_so_far (decode : List Nat → Option Text) (ts : List Turn) (h : (run decode start ts).status = .running) :
    ∃ (done : List (List Nat)) (rest : List Nat) (texts : List Text) (n : Nat), pipeText ts = done.flatten ++ rest ∧ OutputLines done.flatten done ∧
      (rest ≠ [] → ∀ l ∈ done, l.getLast? = some 10) ∧ done.map decode = texts.map some ∧ (0 < n → .close ∈ ts ∧ rest = []) ∧
      (run decode start ts).events = texts.map (fun t => .line (strip t)) ++ List.replicate n (.line []) := by
  have hi := inv decode ts
  obtain ⟨done, texts, n, h1, h2, h3, h4, h5, h6, h7⟩ := hi.lines
  rw [h] at h7
  exact ⟨done, _, texts, n, h7.2, ⟨rfl, h3, h4, h5⟩, fun hr l hl => (h6 l hl).resolve_right (fun h => hr h.2), h1, h2, h7.1⟩

/-- C102: a line that cannot be decoded ends the run by an exception. The lines before it have been reported, and nothing else, no code. -/
theorem proc_raises (decode : List Nat → Option Text) (ts : List Turn) (h : (run decode start ts).status = .raised) :
    ∃ (done : List (List Nat)) (l rest : List Nat) (texts : List Text), pipeText ts = done.flatten ++ l ++ rest ∧ OutputLines (done.flatten ++ l) (done ++ [l]) ∧
      decode l = none ∧ (l.getLast? = some 10 ∨ rest = []) ∧ done.map decode = texts.map some ∧
      (run decode start ts).events = texts.map (fun t => .line (strip t)) := by
  have hi := inv decode ts
  obtain ⟨done, texts, n, h1, h2, h3, h4, h5, h6, h7⟩ := hi.lines
  rw [h] at h7
  obtain ⟨h7, l, hl1, hl2, hl3, hl4, hl5, hl6⟩ := h7
  refine ⟨done, l, _, texts, hl5, ⟨by simp, ?_, ?_, fun x hx => hl6 x (mem_dropLast_snoc hx)⟩, hl2, hl4.imp id (fun h => h.2), h1, by simpa [told] using h7⟩
  · intro x hx; rcases List.mem_append.1 hx with hx | hx
    · exact h3 x hx
    · simp at hx; rw [hx]; exact hl1
  · intro x hx; rcases List.mem_append.1 hx with hx | hx
    · exact h4 x hx
    · simp at hx; rw [hx]; exact hl3

/-- C102: once the output is closed and the program has ended, the run ends, in no more rounds than there are bytes of output, and one; whatever else happens
between them. It returns the code, unless there is a line that cannot be decoded. -/
theorem proc_ends (decode : List Nat → Option Text) (ts us : List Turn) (c : Int) (hclose : .close ∈ ts) (hexit : exitCode ts = some c)
    (hk : (pipeText ts).length < reads us) :
    (run decode start (ts ++ us)).status = .returned c ∨
    ((run decode start (ts ++ us)).status = .raised ∧ ∃ l, decode l = none ∧ l <:+: pipeText ts) := by
  have hi := inv decode ts
  have hw := written_closed hclose us
  have hnr : (run decode start (ts ++ us)).status ≠ .running := by
    have hsplit : run decode start (ts ++ us) = run decode (run decode start ts) us := by simp [run]
    rw [hsplit]
    by_cases hs : (run decode start ts).status = .running
    · refine settle decode us _ ?_ (by rw [hi.code, hexit]; simp) ?_
      · cases ho : (run decode start ts).isOpen with
        | false => rfl
        | true => exact absurd hclose (hi.opened.1 ho)
      · obtain ⟨done, rest, texts, n, h1, _⟩ := hi.lines
        obtain ⟨done, texts, n, _, _, _, _, _, _, h7⟩ := hi.lines
        rw [hs] at h7
        have := congrArg List.length h7.2
        simp at this
        omega
    · rw [run_over decode us _ hs]; exact hs
  cases hs : (run decode start (ts ++ us)).status with
  | running => exact absurd hs hnr
  | returned d =>
    have := (proc_reports decode _ d hs).1
    rw [exitCode_append, hexit] at this
    simp at this
    exact Or.inl (by rw [this])
  | raised =>
    obtain ⟨done, l, rest, texts, h1, _, h3, _⟩ := proc_raises decode _ hs
    exact Or.inr ⟨rfl, l, h3, done.flatten, rest, by rw [← hw, h1]⟩

namespace Processes

theorem count_lines (done : List (List Nat)) (h1 : ∀ l ∈ done, l.getLast? = some 10) (h2 : ∀ l ∈ done, 10 ∉ l.dropLast) :
    done.flatten.count 10 = done.length := by
  induction done with
  | nil => rfl
  | cons l done ih =>
    have hl := h1 l (by simp)
    have hd := h2 l (by simp)
    have he : l = l.dropLast ++ [10] := by
      obtain ⟨pre, hp⟩ := List.getLast?_eq_some_iff.1 hl
      rw [hp]; simp
    have hc : l.count 10 = 1 := by
      rw [he, List.count_append, List.count_eq_zero.2 hd]; rfl
    simp only [List.flatten_cons, List.count_append, List.length_cons]
    rw [ih (fun x hx => h1 x (by simp [hx])) (fun x hx => h2 x (by simp [hx])), hc]
    omega

end Processes

/-- C102: the run only waits while the output is open, and all lines that were ended have been reported. -/
theorem proc_waits_for (decode : List Nat → Option Text) (ts : List Turn) (h : (run decode start ts).status = .running) :
    run decode start (ts ++ [.read]) = run decode start ts ↔ (.close ∉ ts ∧ (run decode start ts).events.length = (pipeText ts).count 10) := by
  have hi := inv decode ts
  have hs : run decode start (ts ++ [.read]) = round decode (run decode start ts) := by simp [run, turn]; rw [show ts.foldl (turn decode) start = run decode start ts from rfl, h]
  rw [hs]
  obtain ⟨done, texts, n, h1, h2, h3, h4, h5, h6, h7⟩ := hi.lines
  rw [h] at h7
  obtain ⟨h7, h8⟩ := h7
  have hlen : done.length = texts.length := by have := congrArg List.length h1; simpa using this
  have hiff : (readline (run decode start ts) = none) ↔ (.close ∉ ts ∧ (run decode start ts).events.length = (pipeText ts).count 10) := by
    by_cases hc : .close ∈ ts
    · have ho : (run decode start ts).isOpen = false := by
        cases ho : (run decode start ts).isOpen with
        | false => rfl
        | true => exact absurd hc (hi.opened.1 ho)
      refine ⟨fun hr => ?_, fun h => absurd hc h.1⟩
      unfold readline at hr
      rw [ho] at hr
      split at hr <;> simp at hr
    · have ho := hi.opened.2 hc
      have hn : n = 0 := by
        rcases Nat.eq_zero_or_pos n with h0 | h0
        · exact h0
        · exact absurd (h2 h0).1 hc
      have hcount := count_lines done (fun l hl => (h6 l hl).resolve_right (fun h => hc h.1)) h4
      have hr : readline (run decode start ts) = none ↔ 10 ∉ (run decode start ts).pipe := by
        rw [← cut_none]
        unfold readline
        rw [ho]
        cases cut (run decode start ts).pipe <;> simp
      rw [hr, h7, h8, List.count_append, hcount, hn]
      simp only [told, List.replicate_zero, List.append_nil, List.length_map, hlen]
      rw [← List.count_eq_zero]
      simp only [hc, not_false_eq_true, true_and]
      omega
  rw [← hiff]
  unfold round
  constructor
  · intro he
    cases hr : readline (run decode start ts) with
    | none => rfl
    | some lr =>
      rw [hr] at he
      exfalso
      match lr with
      | ([], rest) =>
        cases hco : (run decode start ts).code with
        | none => simp only [hco] at he; have := congrArg (fun s => s.events.length) he; simp at this
        | some c => simp only [hco] at he; have := congrArg (fun s => s.events.length) he; simp at this
      | (b :: l, rest) =>
        cases hd : decode (b :: l) with
        | none => simp only [hd] at he; have := congrArg State.status he; rw [h] at this; cases this
        | some t => simp only [hd] at he; have := congrArg (fun s => s.events.length) he; simp at this
  · intro hr; rw [hr]

namespace Processes

/-! ### Runs -/

/-- Decoding of ASCII. -/
def ascii (bs : List Nat) : Option Text := if bs.all (· < 128) then some (bs.map Char.ofNat) else none

/-- A program that writes " a" and "b" in pieces, ends, and closes its output. -/
def usual : List Turn := [.write [32, 97], .read, .write [10], .read, .write [98], .exit 3, .close, .read, .read]

example : run ascii start usual = ⟨[], false, some 3, [.line ['a'], .line ['b'], .exit 3], .returned 3⟩ := by decide
example : (run ascii start [.write [97], .close, .exit 0, .read, .read]).status = .returned 0 := by decide
example : (run ascii start [.write [97], .read]).status = .running := by decide
example : run ascii start [.write [97, 10], .read, .read] = run ascii start [.write [97, 10], .read] := by decide
example : (run ascii start [.write [97, 10, 200, 10], .read, .read]).status = .raised := by decide

theorem replicate_rounds (decode : List Nat → Option Text) (n : Nat) : ∀ s : State, s.status = .running → s.pipe = [] → s.isOpen = false → s.code = none →
    (run decode s (List.replicate n .read)) = { s with events := s.events ++ List.replicate n (.line []) } := by
  induction n with
  | zero => intro s _ _ _ _; simp [run]
  | succ n ih =>
    intro s h1 h2 h3 h4
    rw [List.replicate_succ, run_cons]
    have : turn decode s .read = { s with events := s.events ++ [.line []] } := by
      simp [turn, h1, round, readline, h2, cut, h3, h4]
    have hn := ih { s with events := s.events ++ [.line []] } h1 h2 h3 h4
    rw [this, hn]
    simp [List.replicate_succ]

end Processes

/-- C102 fails: a program that closes its output some time before it ends is reported to write empty lines, as many as there is time for. -/
theorem proc_blanks_violated (decode : List Nat → Option Text) (n : Nat) :
    let ts := [.close] ++ List.replicate n .read ++ [.exit 0, .read]
    pipeText ts = [] ∧ (run decode start ts).status = .returned 0 ∧ (run decode start ts).events = List.replicate n (.line []) ++ [.exit 0] := by
  have h : run decode start ([.close] ++ List.replicate n .read ++ [.exit 0, .read]) =
      ⟨[], false, some 0, List.replicate n (.line []) ++ [.exit 0], .returned 0⟩ := by
    have h1 := replicate_rounds decode n (turn decode start .close) rfl rfl rfl rfl
    simp only [run, List.foldl_append] at h1 ⊢
    simp only [List.foldl_cons, List.foldl_nil]
    rw [h1]
    simp [turn, round, start, readline, cut]
  simp only [h]
  exact ⟨rfl, by first | trivial | rfl, by first | trivial | rfl⟩

/-- C102 fails: a program that has ended, but whose output is still open in another it has started, is waited for, for ever; its code is not reported. -/
theorem proc_orphan_violated (decode : List Nat → Option Text) (n : Nat) :
    let ts := [.exit 0] ++ List.replicate n .read
    exitCode ts = some 0 ∧ (run decode start ts).status = .running ∧ (run decode start ts).events = [] := by
  have h : ∀ n, run decode (turn decode start (.exit 0)) (List.replicate n .read) = turn decode start (.exit 0) := by
    intro n
    induction n with
    | zero => rfl
    | succ n ih => rw [List.replicate_succ, run_cons]; exact ih
  have h' : run decode start ([.exit 0] ++ List.replicate n .read) = turn decode start (.exit 0) := h n
  simp only [h']
  exact ⟨rfl, rfl, rfl⟩

/-- C102 fails: output that cannot be decoded ends the run while the program goes on; neither its later output nor its code are reported. -/
theorem proc_left_violated :
    let ts := [.write [200, 10], .read, .write [97, 10], .read, .exit 1, .close, .read, .read]
    (run ascii start [.write [200, 10], .read]).status = .raised ∧ (run ascii start [.write [200, 10], .read]).code = none ∧
    (run ascii start ts).events = [] ∧ exitCode ts = some 1 := by decide

end Pkm
