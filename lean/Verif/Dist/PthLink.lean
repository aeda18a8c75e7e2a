import Verif.Config.WheelFile
import Verif.Tags.Model
set_option linter.unusedVariables false
set_option linter.unusedSimpArgs false
/-
Model of path configuration files: pkm/src/pkm/api/distributions/pth_link.py ("pl"). Property C70: what is linked is on the path.

Simplifications: POSIX (`os.linesep` is `\n`); paths are their texts and absolute.
-/
namespace Pkm
namespace Pth
open Config (splitAt stripText lstrip Tidy splitAt_append strip_space strip_id)

/-- `PthLink` (pl 22-32). -/
structure Link where
  links : List Text
  imports : Option (List Text) := none
deriving DecidableEq

/-- `save` (pl 34-44): the content of the file. -/
def save (l : Link) : Text :=
  ((l.imports.getD []).flatMap (fun i => t!"import " ++ i ++ ['\n'])) ++ l.links.flatMap (fun p => p ++ ['\n'])

/-- Is it one of the line ends that are read as one (`open(.., 'r')`, universal newlines)? -/
def isEol (c : Char) : Bool := c == '\n' || c == '\r'

/-- One line (pl 54-61); an import, a link, or nothing. -/
inductive Line where
  | nothing
  | imp (t : Text)
  | link (t : Text)
deriving DecidableEq

/-- Lines 54-61. -/
def readLine (l : Text) : Line :=
  if stripText l = [] then .nothing
  else if t!"#".isPrefixOf (stripText l) then .nothing
  else if t!"import ".isPrefixOf (stripText l) || t!"import\t".isPrefixOf (stripText l) then .imp (stripText ((stripText l).drop 6))
  else .link (stripText l)

/-- `load` (pl 46-63). -/
def load (t : Text) : Link :=
  let ls := (splitAt isEol t).map readLine
  { imports := some (ls.filterMap (fun x => match x with | .imp t => some t | _ => none)),
    links := ls.filterMap (fun x => match x with | .link t => some t | _ => none) }

end Pth

namespace Spec

/-- What Python does with a line of a `.pth` file (site.py, `addpackage`): comments and blank lines are skipped, lines that start with
`import` are executed, other lines without blanks at their end are added to the path (if they exist). -/
inductive SiteAction where
  | skip
  | exec (line : Text)
  | path (dir : Text)
deriving DecidableEq

/-- One line. -/
def siteLine (l : Text) : SiteAction :=
  if t!"#".isPrefixOf l then .skip
  else if (Config.lstrip l) = [] then .skip
  else if t!"import ".isPrefixOf l || t!"import\t".isPrefixOf l then .exec l
  else .path (Config.lstrip l.reverse).reverse

/-- The actions for a file. -/
def siteActions (t : Text) : List SiteAction :=
  ((Config.splitAt (fun c => c == '\n' || c == '\r') t).map siteLine).filter (fun a => a != .skip)

/-- An absolute path in one line, without blank at the end. -/
def LinkPath (p : Text) : Prop := p.head? = some '/' ∧ (∀ c ∈ p, c ≠ '\n' ∧ c ≠ '\r') ∧ ∀ c, p.getLast? = some c → isSpace c = false

/-- What may be imported: something in one line, without blanks around. -/
def ImportText (i : Text) : Prop := i ≠ [] ∧ (∀ c ∈ i, c ≠ '\n' ∧ c ≠ '\r') ∧ (∀ c, i.head? = some c → isSpace c = false) ∧
  ∀ c, i.getLast? = some c → isSpace c = false

end Spec

namespace Pth
open Spec
open Config (splitAt stripText lstrip Tidy splitAt_append strip_space strip_id)

theorem lines_eq (ls : List Text) (h : ∀ l ∈ ls, ∀ c ∈ l, c ≠ '\n' ∧ c ≠ '\r') :
    splitAt isEol (ls.flatMap (fun l => l ++ ['\n'])) = ls ++ [[]] := by
  induction ls with
  | nil => simp [splitAt]
  | cons l ls ih =>
    have hl : ∀ c ∈ l, isEol c = false := fun c hc => by
      have := h l (by simp) c hc
      simp [isEol, this]
    have := splitAt_append isEol l '\n' (ls.flatMap (fun l => l ++ ['\n'])) hl (by decide)
    simp only [List.flatMap_cons, List.append_assoc, List.cons_append, List.nil_append] at this ⊢
    rw [this, ih (fun x hx => h x (by simp [hx]))]

/-- The lines of a file. -/
def fileLines (l : Link) : List Text := (l.imports.getD []).map (fun i => t!"import " ++ i) ++ l.links

theorem save_lines (l : Link) : save l = (fileLines l).flatMap (fun x => x ++ ['\n']) := by
  simp [save, fileLines, List.flatMap_append, List.flatMap_map]

theorem link_ends (p : Text) (h : LinkPath p) : stripText p = p := by
  obtain ⟨h1, h2, h3⟩ := h
  refine strip_id p ?_ h3
  intro c hc
  rw [h1] at hc
  injection hc with hc
  subst hc; decide

theorem read_link (p : Text) (h : LinkPath p) : readLine p = .link p ∧ siteLine p = .path p := by
  have hs := link_ends p h
  obtain ⟨h1, h2, h3⟩ := h
  cases p with
  | nil => simp at h1
  | cons c p =>
    simp at h1
    subst h1
    refine ⟨by simp [readLine, hs, List.isPrefixOf], ?_⟩
    have hl : lstrip ('/' :: p) = '/' :: p := Config.lstrip_id _ (by simp; decide)
    have hr : (lstrip ('/' :: p).reverse).reverse = '/' :: p := by
      rw [Config.lstrip_id]
      · simp
      · intro c hc; rw [List.head?_reverse] at hc; exact h3 c hc
    simp only [siteLine, hl, hr]
    simp [List.isPrefixOf]

theorem read_import (i : Text) (h : ImportText i) :
    readLine (t!"import " ++ i) = .imp i ∧ siteLine (t!"import " ++ i) = .exec (t!"import " ++ i) := by
  obtain ⟨h1, h2, h3, h4⟩ := h
  have hs : stripText (t!"import " ++ i) = t!"import " ++ i := by
    refine strip_id _ (by simp; decide) ?_
    intro c hc
    refine h4 c ?_
    cases hi : i.getLast? with
    | none => simp at hi; exact absurd hi h1
    | some x =>
      rw [List.getLast?_append, hi] at hc
      simpa using hc
  have hp : t!"import ".isPrefixOf (t!"import " ++ i) = true := List.isPrefixOf_iff_prefix.2 (List.prefix_append _ _)
  have hd : (t!"import " ++ i).drop 6 = ' ' :: i := rfl
  have hh : t!"#".isPrefixOf (t!"import " ++ i) = false := rfl
  have hi : stripText (' ' :: i) = i := by
    have : lstrip (' ' :: i) = lstrip i := by
      have : isSpace ' ' = true := by decide
      simp [lstrip, List.dropWhile, this]
    have := strip_id i h3 h4
    unfold stripText at this ⊢
    rw [‹lstrip (' ' :: i) = lstrip i›]
    exact this
  have hl : lstrip (t!"import " ++ i) = t!"import " ++ i := Config.lstrip_id _ (by simp; decide)
  refine ⟨?_, ?_⟩
  · rw [readLine, hs, if_neg (by simp), hh, hp, hd, hi]; rfl
  · rw [siteLine, hh, hl, hp]; simp

theorem line_ok (l : Link) (hl : ∀ p ∈ l.links, LinkPath p) (hi : ∀ i ∈ l.imports.getD [], ImportText i) :
    ∀ x ∈ fileLines l, ∀ c ∈ x, c ≠ '\n' ∧ c ≠ '\r' := by
  intro x hx
  simp only [fileLines, List.mem_append, List.mem_map] at hx
  rcases hx with ⟨i, hi', rfl⟩ | hx
  · intro c hc
    rcases List.mem_append.1 hc with hc | hc
    · exact (by decide : ∀ c ∈ t!"import ", c ≠ '\n' ∧ c ≠ '\r') c hc
    · exact (hi i hi').2.1 c hc
  · exact (hl x hx).2.1

/-- C70: saving a link and loading it gives the same links and imports. What is missing: imports that are empty
(`pth_import_violated`) and paths with line ends or blanks at their ends (`pth_blank_violated`). -/
theorem pth_round_trip_partial (l : Link) (hl : ∀ p ∈ l.links, LinkPath p) (hi : ∀ i ∈ l.imports.getD [], ImportText i) :
    load (save l) = { links := l.links, imports := some (l.imports.getD []) } := by
  have hlines : (splitAt isEol (save l)).map readLine =
      (l.imports.getD []).map .imp ++ (l.links.map .link ++ [.nothing]) := by
    rw [save_lines, lines_eq _ (line_ok l hl hi)]
    simp only [fileLines, List.map_append, List.map_map, List.map_cons, List.map_nil, List.append_assoc]
    congr 1
    · exact List.map_congr_left (fun i h => (read_import i (hi i h)).1)
    · congr 1
      exact List.map_congr_left (fun p h => (read_link p (hl p h)).1)
  simp only [load, hlines, List.filterMap_append, List.filterMap_map, Function.comp_def, List.filterMap_cons, List.filterMap_nil]
  simp [List.filterMap_eq_map']

/-- C70: Python puts exactly the links on its path, in order, after executing the imports. -/
theorem pth_site_partial (l : Link) (hl : ∀ p ∈ l.links, LinkPath p) (hi : ∀ i ∈ l.imports.getD [], ImportText i) :
    siteActions (save l) = (l.imports.getD []).map (fun i => .exec (t!"import " ++ i)) ++ l.links.map .path := by
  have hlines : (splitAt (fun c => c == '\n' || c == '\r') (save l)).map siteLine =
      (l.imports.getD []).map (fun i => .exec (t!"import " ++ i)) ++ (l.links.map .path ++ [.skip]) := by
    have := lines_eq _ (line_ok l hl hi)
    rw [← save_lines] at this
    rw [show (fun c => c == '\n' || c == '\r') = isEol from rfl, this]
    simp only [fileLines, List.map_append, List.map_map, List.map_cons, List.map_nil, List.append_assoc]
    refine congr (congrArg _ ?_) (congr (congrArg _ ?_) rfl)
    · exact List.map_congr_left (fun i h => (read_import i (hi i h)).2)
    · exact List.map_congr_left (fun p h => (read_link p (hl p h)).2)
  simp only [siteActions, hlines, List.filter_append]
  congr 1
  · rw [List.filter_eq_self]; intro a ha; obtain ⟨i, _, rfl⟩ := List.mem_map.1 ha; rfl
  · have : (l.links.map SiteAction.path).filter (fun a => a != .skip) = l.links.map .path := by
      rw [List.filter_eq_self]; intro a ha; obtain ⟨i, _, rfl⟩ := List.mem_map.1 ha; rfl
    rw [this]; simp

example : (∀ p ∈ [t!"/home/a b/src", t!"/opt/#x"], LinkPath p) ∧ (∀ i ∈ [t!"os, sys"], ImportText i) ∧
    siteActions (save ⟨[t!"/home/a b/src", t!"/opt/#x"], some [t!"os, sys"]⟩) =
      [.exec t!"import os, sys", .path t!"/home/a b/src", .path t!"/opt/#x"] := by
  refine ⟨?_, ?_, by decide⟩
  · intro p hp
    simp only [List.mem_cons, List.not_mem_nil, or_false] at hp
    rcases hp with rfl | rfl
    · exact ⟨rfl, by decide, by rintro c ⟨⟩; decide⟩
    · exact ⟨rfl, by decide, by rintro c ⟨⟩; decide⟩
  · intro i hi
    simp only [List.mem_cons, List.not_mem_nil, or_false] at hi
    subst hi
    exact ⟨by decide, by decide, by rintro c ⟨⟩; decide, by rintro c ⟨⟩; decide⟩

/-- C70 fails for an empty import: it comes back as a link. -/
theorem pth_import_violated : load (save ⟨[], some [[]]⟩) = ⟨[t!"import"], some []⟩ := by decide

/-- C70 fails for directories whose name ends in a blank: another directory is put on the path. -/
theorem pth_blank_violated (p : Text) (h : LinkPath p) :
    load (save ⟨[p ++ [' ']], none⟩) = ⟨[p], some []⟩ ∧ siteActions (save ⟨[p ++ [' ']], none⟩) = [.path p] := by
  have hsp : isSpace ' ' = true := by decide
  have hs : stripText (p ++ [' ']) = p := by
    have h0 := link_ends p h
    obtain ⟨h1, h2, h3⟩ := h
    cases p with
    | nil => simp at h1
    | cons c p =>
      simp at h1; subst h1
      have hl : ∀ t, lstrip ('/' :: t) = '/' :: t := fun t => Config.lstrip_id _ (by simp; decide)
      unfold stripText at h0 ⊢
      rw [List.cons_append, hl, ← List.cons_append, List.reverse_append]
      rw [hl] at h0
      simp only [List.reverse_cons, List.reverse_nil, List.nil_append, List.cons_append] at h0 ⊢
      rw [show lstrip (' ' :: (p.reverse ++ ['/'])) = lstrip (p.reverse ++ ['/']) by simp [lstrip, List.dropWhile, hsp]]
      exact h0
  have hlines : splitAt isEol (save ⟨[p ++ [' ']], none⟩) = [p ++ [' '], []] := by
    rw [save_lines]
    refine lines_eq [p ++ [' ']] ?_
    intro l hl c hc
    simp at hl; subst hl
    rcases List.mem_append.1 hc with hc | hc
    · exact h.2.1 c hc
    · simp at hc; subst hc; decide
  obtain ⟨r1, r2⟩ := read_link p h
  have hr : readLine (p ++ [' ']) = .link p := by
    have := link_ends p h
    rw [readLine, this] at r1
    rw [readLine, hs]; exact r1
  have hq : siteLine (p ++ [' ']) = .path p := by
    obtain ⟨h1, h2, h3⟩ := h
    cases p with
    | nil => simp at h1
    | cons c p =>
      simp at h1; subst h1
      have hl : ∀ t, lstrip ('/' :: t) = '/' :: t := fun t => Config.lstrip_id _ (by simp; decide)
      have e : (lstrip ('/' :: p ++ [' ']).reverse).reverse = '/' :: p := by
        unfold stripText at hs
        rw [List.cons_append, hl] at hs
        exact hs
      rw [siteLine, e, List.cons_append, hl]
      simp [List.isPrefixOf]
  refine ⟨?_, ?_⟩
  · simp only [load, hlines, List.map_cons, List.map_nil, hr]
    rfl
  · simp only [siteActions]
    rw [show (fun c => c == '\n' || c == '\r') = isEol from rfl, hlines]
    simp only [List.map_cons, List.map_nil, hq]
    rfl

example : LinkPath t!"/home/a" := ⟨rfl, by decide, by rintro c ⟨⟩; decide⟩

end Pth
end Pkm
