import Verif.Environments.Launchers
import Verif.VersionText.Parsed
set_option linter.unusedVariables false
set_option linter.unusedSimpArgs false
/-
C94: the scripts of an environment are run by its interpreter.
-/
namespace Pkm
open Launch Tags

namespace Spec

/-- A blank of an interpreter line. -/
def blank (c : Char) : Bool := c == ' ' || c == '\t'

/-- The first line of a file, without its end. -/
def firstLine (t : Text) : Text := t.takeWhile (· != '\n')

/-- What follows the first line. -/
def afterFirstLine (t : Text) : Text := (t.dropWhile (· != '\n')).drop 1

/-- How Linux runs a script: the first line is `#!`, the interpreter, and everything behind the first
blank, if anything, as one argument. -/
def runsWith (t : Text) : Option (Text × Option Text) :=
  match firstLine t with
  | '#' :: '!' :: l =>
    let l := l.dropWhile blank
    let prog := l.takeWhile (fun c => !blank c)
    let arg := ((l.dropWhile (fun c => !blank c)).dropWhile blank).reverse.dropWhile blank |>.reverse
    if prog = [] then none else some (prog, if arg = [] then none else some arg)
  | _ => none

/-- The text of the absolute path of an interpreter, without blanks. -/
def PlainInterp (t : Text) : Prop := (∃ r, t = '/' :: r) ∧ ∀ c ∈ t, blank c = false ∧ c ≠ '\n'

end Spec
open Spec

namespace Launch

theorem readLine_append (t : Text) : (readLine t).1 ++ (readLine t).2 = t := by
  induction t with
  | nil => rfl
  | cons c t ih =>
    unfold readLine
    split
    · rename_i h; simp [h]
    · simp [ih]

theorem readLine_spec (t : Text) : ((readLine t).1 = firstLine t ++ ['\n'] ∨ ((readLine t).1 = firstLine t ∧ (readLine t).2 = [])) ∧
    (readLine t).2 = afterFirstLine t := by
  induction t with
  | nil => simp [readLine, firstLine, afterFirstLine]
  | cons c t ih =>
    unfold readLine
    split
    · rename_i h; subst h; simp [firstLine, afterFirstLine]
    · rename_i h
      have e1 : firstLine (c :: t) = c :: firstLine t := by simp [firstLine, h]
      have e2 : afterFirstLine (c :: t) = afterFirstLine t := by simp [afterFirstLine, h]
      rw [e1, e2]
      refine ⟨?_, ih.2⟩
      rcases ih.1 with e | ⟨e, e'⟩
      · left; simp [e]
      · right; exact ⟨by simp [e], e'⟩

theorem firstLine_of (l rest : Text) (h : ∀ c ∈ l, c ≠ '\n') : firstLine (l ++ '\n' :: rest) = l ∧ afterFirstLine (l ++ '\n' :: rest) = rest := by
  induction l with
  | nil => simp [firstLine, afterFirstLine]
  | cons c l ih =>
    have hc := h c (by simp)
    have ih := ih (fun d hd => h d (by simp [hd]))
    simp only [firstLine, afterFirstLine] at ih ⊢
    simp [hc, ih]

theorem takeWhile_all {l : Text} {q : Char → Bool} (h : ∀ c ∈ l, q c = true) : l.takeWhile q = l ∧ l.dropWhile q = [] := by
  induction l with
  | nil => simp
  | cons c l ih =>
    have hc := h c (by simp)
    have ih := ih (fun d hd => h d (by simp [hd]))
    simp [hc, ih]

/-- A first line that is `#!` and a plain path runs with the path. -/
theorem runsWith_plain (interp rest : Text) (h : PlainInterp interp) :
    runsWith (t!"#!" ++ interp ++ '\n' :: rest) = some (interp, none) := by
  obtain ⟨⟨r, hr⟩, hb⟩ := h
  have hfl : firstLine (t!"#!" ++ interp ++ '\n' :: rest) = t!"#!" ++ interp :=
    (firstLine_of _ rest (by
      intro c hc
      simp only [List.mem_append, List.mem_cons, List.not_mem_nil, or_false] at hc
      rcases hc with (rfl | rfl) | hc
      · decide
      · decide
      · exact (hb c hc).2)).1
  unfold runsWith
  rw [hfl]
  simp only [List.cons_append, List.nil_append]
  have hd : interp.dropWhile blank = interp := by
    rw [hr]
    have : blank '/' = false := by decide
    simp [this]
  obtain ⟨h1, h2⟩ := takeWhile_all (l := interp) (q := fun c => !blank c) (fun c hc => by simp [(hb c hc).1])
  rw [hd, h1, h2]
  simp [hr]

theorem prefix_readLine (p t : Text) (hp : '\n' ∉ p) : p.isPrefixOf (readLine t).1 = true ↔ p <+: t := by
  rw [List.isPrefixOf_iff_prefix]
  constructor
  · intro h
    have := h.trans (List.prefix_append (readLine t).1 (readLine t).2)
    rwa [readLine_append] at this
  · intro h
    induction p generalizing t with
    | nil => simp
    | cons c p ih =>
      obtain ⟨r, hr⟩ := h
      cases t with
      | nil => simp at hr
      | cons d t =>
        simp only [List.cons_append, List.cons.injEq] at hr
        obtain ⟨rfl, hr⟩ := hr
        have hc : c ≠ '\n' := fun e => hp (by simp [e])
        unfold readLine
        rw [if_neg hc]
        simp only
        rw [List.cons_prefix_cons]
        exact ⟨rfl, ih t (fun e => hp (by simp [e])) ⟨r, hr⟩⟩

/-- What a patched script looks like. -/
theorem patch_python (interp linesep source : Text) (hs : t!"#!python" <+: source) :
    patch interp linesep source = t!"#!" ++ interp ++ (if (t!"#!pythonw").isPrefixOf source then ['w'] else []) ++ linesep ++ afterFirstLine source := by
  unfold patch
  simp only
  rw [if_pos ((prefix_readLine _ source (by decide)).2 hs), (readLine_spec source).2]
  have : (t!"#!pythonw").isPrefixOf (readLine source).1 = (t!"#!pythonw").isPrefixOf source := by
    rw [Bool.eq_iff_iff, prefix_readLine _ source (by decide), List.isPrefixOf_iff_prefix]
  rw [this]

end Launch

/-- C94: a script of a wheel whose first line starts with `#!python`, but not `#!pythonw`, is run by the
interpreter of the environment, and the rest of the script is unchanged. -/
theorem patch_runs_partial (interp source : Text) (h : PlainInterp interp) (hs : t!"#!python" <+: source)
    (hw : ¬ t!"#!pythonw" <+: source) :
    runsWith (patch interp ['\n'] source) = some (interp, none) ∧
    afterFirstLine (patch interp ['\n'] source) = afterFirstLine source := by
  have hw' : (t!"#!pythonw").isPrefixOf source = false := by
    cases e : (t!"#!pythonw").isPrefixOf source with
    | false => rfl
    | true => exact absurd (List.isPrefixOf_iff_prefix.1 e) hw
  have e : patch interp ['\n'] source = t!"#!" ++ interp ++ '\n' :: afterFirstLine source := by
    rw [patch_python interp _ source hs, hw']
    simp
  rw [e]
  refine ⟨runsWith_plain interp _ h, ?_⟩
  refine (firstLine_of _ _ ?_).2
  intro c hc
  simp only [List.mem_append, List.mem_cons, List.not_mem_nil, or_false] at hc
  rcases hc with (rfl | rfl) | hc
  · decide
  · decide
  · exact (h.2 c hc).2

example : patch t!"/e/bin/python" ['\n'] (t!"#!python" ++ ['\n'] ++ t!"import x") =
      t!"#!/e/bin/python" ++ ['\n'] ++ t!"import x" ∧ PlainInterp t!"/e/bin/python" ∧
    (t!"#!python" : Text) <+: t!"#!python3" ∧ ¬ (t!"#!pythonw" : Text) <+: t!"#!python3" := by
  refine ⟨by decide, ⟨⟨_, rfl⟩, by decide⟩, by decide, by decide⟩

/-- C94: any other script is copied as it is. -/
theorem patch_others (interp linesep source : Text) (hs : ¬ t!"#!python" <+: source) : patch interp linesep source = source := by
  unfold patch
  simp only
  rw [if_neg (fun e => hs ((prefix_readLine _ source (by decide)).1 e)), readLine_append]

example : ¬ (t!"#!python" : Text) <+: t!"#!/bin/sh" := by decide

/-- C94: a script can be run by its owner, whatever its mode was, and no permission is lost. -/
theorem script_mode (mode i : Nat) : (execMode mode).testBit i = (mode.testBit i || decide (i = 6)) := by
  unfold execMode
  rw [Nat.testBit_or]
  congr 1
  rw [show (64 : Nat) = 2 ^ 6 from rfl, Nat.testBit_two_pow]
  simp [eq_comm]

example : execMode 0o644 = 0o744 := by decide

/-- C94, what fails: arguments that the author gave to the interpreter (`#!python -E`) are lost, whatever
they are. -/
theorem patch_arguments_violated (interp linesep args rest : Text) (ha : ∀ c ∈ args, c ≠ '\n') (hw : ∀ r, args ≠ 'w' :: r) :
    patch interp linesep (t!"#!python" ++ args ++ '\n' :: rest) = patch interp linesep (t!"#!python" ++ '\n' :: rest) := by
  have h1 : t!"#!python" <+: t!"#!python" ++ args ++ '\n' :: rest := ⟨args ++ '\n' :: rest, by simp⟩
  have h2 : t!"#!python" <+: t!"#!python" ++ '\n' :: rest := List.prefix_append _ _
  have hn : ∀ c ∈ t!"#!python", c ≠ '\n' := by decide
  rw [patch_python _ _ _ h1, patch_python _ _ _ h2]
  rw [(firstLine_of (t!"#!python" ++ args) rest (by
    intro c hc
    rcases List.mem_append.1 hc with hc | hc
    · exact hn c hc
    · exact ha c hc)).2, (firstLine_of t!"#!python" rest hn).2]
  have e1 : (t!"#!pythonw").isPrefixOf (t!"#!python" ++ args ++ '\n' :: rest) = false := by
    cases args with
    | nil => rfl
    | cons c args =>
      have : c ≠ 'w' := fun e => hw args (by rw [e])
      simp [List.isPrefixOf, Ne.symm this]
  have e2 : (t!"#!pythonw").isPrefixOf (t!"#!python" ++ '\n' :: rest) = false := rfl
  rw [e1, e2]

example : runsWith (t!"#!/usr/bin/python -E" ++ ['\n']) = some (t!"/usr/bin/python", some t!"-E") ∧
    runsWith (patch t!"/e/bin/python" ['\n'] (t!"#!python -E" ++ ['\n'])) = some (t!"/e/bin/python", none) := by decide

/-- C94, what fails: `#!pythonw` runs with another file, whose name is that of the interpreter and a `w`. -/
theorem patch_w_violated (interp source : Text) (h : PlainInterp interp) (hs : t!"#!pythonw" <+: source) :
    runsWith (patch interp ['\n'] source) = some (interp ++ ['w'], none) := by
  have h1 : t!"#!python" <+: source := (by decide : (t!"#!python" : Text) <+: t!"#!pythonw").trans hs
  rw [patch_python _ _ _ h1, List.isPrefixOf_iff_prefix.2 hs]
  have := runsWith_plain (interp ++ ['w']) (afterFirstLine source) (by
    obtain ⟨⟨r, hr⟩, hb⟩ := h
    refine ⟨⟨r ++ ['w'], by rw [hr]; rfl⟩, ?_⟩
    intro c hc
    rcases List.mem_append.1 hc with hc | hc
    · exact hb c hc
    · rw [List.mem_singleton] at hc; subst hc; decide)
  simpa using this

example : (t!"#!pythonw" : Text) <+: t!"#!pythonw3" := by decide

/-- C94, what fails: a script that was patched for one environment is not patched for another one. Shared
packages (C93) take the scripts from the first environment, so in all others they run with the interpreter
of the first. -/
theorem patch_again_violated (interp1 interp2 source : Text) (h : PlainInterp interp1) (hs : t!"#!python" <+: source)
    (hw : ¬ t!"#!pythonw" <+: source) :
    runsWith (patch interp2 ['\n'] (patch interp1 ['\n'] source)) = some (interp1, none) := by
  have hno : ¬ t!"#!python" <+: patch interp1 ['\n'] source := by
    rw [patch_python _ _ _ hs]
    obtain ⟨⟨r, hr⟩, _⟩ := h
    rintro ⟨x, hx⟩
    rw [hr] at hx
    simp at hx
  rw [patch_others _ _ _ hno]
  exact (patch_runs_partial interp1 source h hs hw).1

namespace Launch

theorem never_windows (system machine : Text) (bits : Nat) : hasWindows (platformOf system machine bits) = false := by
  unfold hasWindows platformOf
  simp only [beq_eq_false_iff_ne, ne_eq]
  intro e
  have := lower_not_upper system 'W' (by rw [e]; simp)
  exact absurd this (by decide)

theorem plain_newline {interp : Text} (h : PlainInterp interp) : ∀ c ∈ t!"#!" ++ interp, c ≠ '\n' := by
  intro c hc
  simp only [List.mem_append, List.mem_cons, List.not_mem_nil, or_false] at hc
  rcases hc with (rfl | rfl) | hc
  · decide
  · decide
  · exact (h.2 c hc).2

end Launch

/-- C94: the script of an entry point has the name of the entry point, is run by the interpreter of the
environment and holds nothing but the call. -/
theorem entry_runs_partial (data : Text → Text) (system machine : Text) (bits : Nat) (interp file module object : Text) (g : Group)
    (h : PlainInterp interp) :
    ∃ t, generateFor data (platformOf system machine bits) interp file module object g = (some (file, t), .ok file) ∧
      runsWith t = some (interp, none) ∧
      afterFirstLine t = t!"import sys;import " ++ module ++ t!";sys.exit(" ++ module ++ '.' :: object ++ t!"())" := by
  have hgen : generateFor data (platformOf system machine bits) interp file module object g =
      (some (file, t!"#!" ++ interp ++ '\n' :: snippet module object), .ok file) := by
    unfold generateFor generate
    rw [never_windows]
    simp
  refine ⟨_, hgen, runsWith_plain interp _ h, ?_⟩
  rw [(firstLine_of _ _ (plain_newline h)).2]
  simp [snippet]

example : (generateFor (fun _ => []) (platformOf t!"Linux" t!"x86_64" 64) t!"/e/bin/python" t!"run" t!"a.b" t!"main" .console).1 =
    some (t!"run", t!"#!/e/bin/python" ++ ['\n'] ++ t!"import sys;import a.b;sys.exit(a.b.main())") := by decide

/-- C94, what fails: if the path of the interpreter has a blank, its scripts are run by something else. -/
theorem entry_blank_violated (data : Text → Text) (system machine : Text) (bits : Nat) (interp file module object t : Text) (g : Group)
    (n : Text) (c : Char) (hc : c ∈ interp) (hb : blank c = true)
    (h : (generateFor data (platformOf system machine bits) interp file module object g).1 = some (n, t)) (arg : Option Text) :
    runsWith t ≠ some (interp, arg) := by
  intro e
  unfold runsWith at e
  split at e
  · rename_i l _
    simp only at e
    split at e
    · cases e
    · simp only [Option.some.injEq, Prod.mk.injEq] at e
      have hmem : ∀ (l : Text), c ∈ l.takeWhile (fun c => !blank c) → blank c = false := by
        intro l
        induction l with
        | nil => simp
        | cons d l ih =>
          rw [List.takeWhile_cons]
          split
          · rename_i hd
            intro hm
            rcases List.mem_cons.1 hm with rfl | hm
            · simpa using hd
            · exact ih hm
          · simp
      have := hmem (l.dropWhile blank) (by rw [e.1]; exact hc)
      rw [hb] at this; cases this
  · cases e

example : runsWith (t!"#!/my env/bin/python" ++ ['\n']) = some (t!"/my", some t!"env/bin/python") := by decide

/-- C94, what fails: the platform is kept in lower case and compared with `Windows`: no environment is
taken for one of Windows, and scripts without launcher are made there. -/
theorem windows_launcher_violated (data : Text → Text) (machine : Text) (bits : Nat) (interp file script : Text) (isGui : Bool) :
    generate data (platformOf t!"Windows" machine bits) interp file script isGui =
      (some (file, t!"#!" ++ interp ++ ['\n'] ++ script), .ok file) := by
  unfold generate
  rw [never_windows]
  simp

/-- C94, what fails: if a launcher were made, it would end with an exception for every platform, and the
file that it leaves would not hold the script: the content is the same for all scripts. The launchers for
ARM are looked up by a name that no shipped file has. -/
theorem launcher_fails_violated (data : Text → Text) (p : Platform) (interp file : Text) (isGui : Bool) :
    (∃ e, (windowsLauncher data p interp file isGui).2 = .error e) ∧
    (hasArm p = true → (windowsLauncher data p interp file isGui) = (none, .error .missing)) := by
  refine ⟨?_, ?_⟩
  · unfold windowsLauncher
    split
    · exact ⟨_, rfl⟩
    · exact ⟨_, rfl⟩
  · intro ha
    unfold windowsLauncher
    rw [if_neg]
    unfold launcherName
    rw [ha]
    intro hm
    have hs : ∀ x ∈ shipped, x[1]? ≠ some '-' := by decide
    apply hs _ hm
    cases isGui <;> rfl

example : hasArm (platformOf t!"Windows" t!"aarch64" 64) = true ∧ hasArm (platformOf t!"Windows" t!"ARM64" 64) = false ∧
    hasArm (platformOf t!"Linux" t!"armv7l" 32) = false := by decide

/-- C94: the kinds of launchers: an entry point of the console gets a launcher of the console (`t`), one
with windows a launcher with windows (`w`), though `is_gui` means the opposite in both places. -/
theorem launcher_kind (data : Text → Text) (p : Platform) (interp file : Text) (g : Group) (f c : Text)
    (h : (windowsLauncher data p interp file (g == .console)).1 = some (f, c)) :
    f = file ++ t!".exe" ∧ ∃ r, c = data ((match g with | .console => 't' | .gui => 'w') :: r) ++ t!"#!" ++ interp ++ ['\r', '\n'] := by
  unfold windowsLauncher at h
  split at h
  · simp only [Option.some.injEq, Prod.mk.injEq] at h
    obtain ⟨rfl, rfl⟩ := h
    refine ⟨rfl, ?_⟩
    unfold launcherName
    cases g
    · exact ⟨_, rfl⟩
    · exact ⟨_, rfl⟩
  · cases h

example : ((windowsLauncher (fun n => n) (platformOf t!"Windows" t!"AMD64" 64) t!"C:\\e\\python.exe" t!"run" true).1) =
    some (t!"run.exe", t!"t64.exe#!C:\\e\\python.exe" ++ ['\r', '\n']) := by decide +kernel

/-- C94: on a platform that is taken for Windows, the launcher of a console entry point is the one for terminals and that of
a graphical one is the one for windows: the flag for graphical programs is passed the wrong way round, and read the wrong way
round. The launcher is left without its script. -/
theorem entry_launcher_kind (data : Text → Text) (machine interp file module object : Text) (bits : Nat) (hb : bits = 32 ∨ bits = 64)
    (ha : hasArm ⟨t!"Windows", machine, bits⟩ = false) (g : Group) :
    generateFor data ⟨t!"Windows", machine, bits⟩ interp file module object g =
      (some (file ++ t!".exe", data ((match g with | .console => ['t'] | .gui => ['w']) ++ (if bits = 32 then t!"32" else t!"64") ++ t!".exe") ++
        t!"#!" ++ interp ++ ['\r', '\n']), .error .badZip) := by
  have hw : hasWindows ⟨t!"Windows", machine, bits⟩ = true := by simp [hasWindows]
  unfold generateFor generate windowsLauncher launcherName
  rw [ha, if_pos hw]
  have h32 : (toString 32).toList = t!"32" := by decide
  have h64 : (toString 64).toList = t!"64" := by decide
  rcases hb with rfl | rfl
  · cases g
    · simp only [h32]; rw [if_pos (by decide)]; rfl
    · simp only [h32]; rw [if_pos (by decide)]; rfl
  · cases g
    · simp only [h64]; rw [if_pos (by decide)]; rfl
    · simp only [h64]; rw [if_pos (by decide)]; rfl

example : hasArm ⟨t!"Windows", t!"amd64", 64⟩ = false := by decide

end Pkm
