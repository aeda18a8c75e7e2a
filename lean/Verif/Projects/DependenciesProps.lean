import Verif.Projects.Dependencies
import Verif.Requirements.Props
set_option linter.unusedVariables false
set_option linter.unusedSimpArgs false
/-
Property C63: the dependencies of a project are its own ones and those of the requested extras.
-/
namespace Pkm
namespace Spec
open Markers Reqs

/-- The name of a group of optional dependencies: letters, digits, `_`, `-` and `.`, but no capital J. -/
def ExtraGroup (g : Text) : Prop := ∀ c, c ∈ g → isIdent c = true ∧ c ≠ 'J'

/-- A requirement without its marker. -/
def required (d : Dep) : Text × VSpec × Option (List Text) := (d.name, d.spec, d.extras)

/-- Does the marker of a requirement hold? No marker always holds. -/
def holds (c : Ctx) (d : Dep) : Bool :=
  match d.marker with
  | none => true
  | some m => match m.evaluate c with
    | .ok b => b
    | .error _ => false

/-- The marker of a requirement can be evaluated. -/
def Defined (c : Ctx) (d : Dep) : Prop := ∀ m, d.marker = some m → ∃ b, m.evaluate c = .ok b

/-- What a project needs: its own requirements whose markers hold, and of the groups that are requested as extras, in the
order of the groups, the requirements whose markers hold. -/
def needed (c : Ctx) (deps : List Dep) (optional : List (Text × List Dep)) : List Dep :=
  deps.filter (holds c) ++ (optional.filter (fun g => decide (g.1 ∈ c.extras))).flatMap (fun g => g.2.filter (holds c))

/-- A requirement of the group that has no marker, or one that starts with `extra == 'group' and …`. -/
inductive OfGroup (g : Text) (d : Dep) : Prop
  | plain : d.marker = none → OfGroup g d
  | guarded (m : EnvMarker) (b1 b2 b3 : Text) (double : Bool) (rest : List Piece) : d.marker = some m →
      ExprOk [.atom [] (.name ['e', 'x', 't', 'r', 'a']) b1 .eq b2 (.str double g) b3 :: rest] →
      m.expr = Markers.orText [.atom [] (.name ['e', 'x', 't', 'r', 'a']) b1 .eq b2 (.str double g) b3 :: rest] →
      (∀ c, m.evaluate c = exprValue c
        [.atom [] (.name ['e', 'x', 't', 'r', 'a']) b1 .eq b2 (.str double g) b3 :: rest]) → OfGroup g d

end Spec

namespace Projects
open Markers Reqs Spec PS

/-! ### texts of markers do not end in a semicolon -/

theorem blank_ne (b : Text) (h : Blank b) (x : Char) (hx : x ∈ b) : x ≠ ';' := by
  rintro rfl
  have := h _ hx
  revert this; decide

theorem snoc_of_ne {α} (l : List α) (h : l ≠ []) : ∃ u x, l = u ++ [x] :=
  ⟨l.dropLast, l.getLast h, (List.dropLast_concat_getLast h).symm⟩

theorem word_last (w : Word) (h : w.Ok) : ∃ u x, w.text = u ++ [x] ∧ x ≠ ';' := by
  cases w with
  | str d s => exact ⟨quoteChar d :: s, quoteChar d, by simp [Word.text], by cases d <;> decide⟩
  | name n =>
    obtain ⟨c, cs, rfl, hc, hcs⟩ := h
    obtain ⟨u, x, e⟩ := snoc_of_ne (c :: cs) (by simp)
    refine ⟨u, x, by simpa [Word.text] using e, ?_⟩
    rintro rfl
    have hm : ';' ∈ c :: cs := by rw [e]; simp
    rcases List.mem_cons.1 hm with h | h
    · subst h; revert hc; decide
    · have := hcs _ h; revert this; decide

theorem append_last (a b : Text) (h : ∃ u x, b = u ++ [x] ∧ x ≠ ';') : ∃ u x, a ++ b = u ++ [x] ∧ x ≠ ';' := by
  obtain ⟨u, x, rfl, hx⟩ := h
  exact ⟨a ++ u, x, by simp, hx⟩

theorem last_blank (a b : Text) (ha : ∃ u x, a = u ++ [x] ∧ x ≠ ';') (hb : Blank b) :
    ∃ u x, a ++ b = u ++ [x] ∧ x ≠ ';' := by
  cases hb' : b with
  | nil => simpa using ha
  | cons y ys =>
    obtain ⟨u, x, e⟩ := snoc_of_ne b (by simp [hb'])
    refine ⟨a ++ u, x, by rw [← hb', e]; simp, ?_⟩
    exact blank_ne b hb x (by rw [e]; simp)

theorem piece_last (p : Piece) (h : p.Ok) : ∃ u x, p.text = u ++ [x] ∧ x ≠ ';' := by
  cases p with
  | atom b0 l b1 op b2 r b3 =>
    simp only [Piece.Ok] at h
    simp only [Piece.text]
    exact append_last _ _ (append_last _ _ (append_last _ _ (append_last _ _ (append_last _ _
      (last_blank _ _ (word_last r h.2.2.2.2.2.2.1) h.2.2.2.1)))))
  | paren b0 gs b3 =>
    simp only [Piece.Ok] at h
    simp only [Piece.text]
    have e : b0 ++ ('(' :: (Markers.orText gs ++ (')' :: b3))) = (b0 ++ ('(' :: Markers.orText gs)) ++ ([')'] ++ b3) := by simp
    rw [e]
    exact append_last _ _ (last_blank _ _ ⟨[], ')', rfl, by decide⟩ h.2.1)

theorem and_last (g : List Piece) (hne : g ≠ []) (h : piecesOk g) : ∃ u x, andText g = u ++ [x] ∧ x ≠ ';' := by
  induction g with
  | nil => exact absurd rfl hne
  | cons p ps ih =>
    simp only [piecesOk] at h
    cases ps with
    | nil => simpa [andText] using piece_last p h.1
    | cons q qs =>
      simp only [andText]
      have := ih (by simp) h.2
      exact append_last p.text _ (append_last ['a', 'n', 'd'] _ this)

theorem or_last (gs : Markers.Expr) (hne : gs ≠ []) (h : groupsOk gs) : ∃ u x, Markers.orText gs = u ++ [x] ∧ x ≠ ';' := by
  induction gs with
  | nil => exact absurd rfl hne
  | cons g gs ih =>
    simp only [groupsOk] at h
    cases gs with
    | nil => simpa [Markers.orText] using and_last g h.1 h.2.1
    | cons q qs =>
      simp only [Markers.orText]
      have := ih (by simp) h.2.2
      exact append_last (andText g) _ (append_last ['o', 'r'] _ this)

theorem rstrip_or (gs : Markers.Expr) (h : ExprOk gs) : rstripSemi (Markers.orText gs) = Markers.orText gs := by
  obtain ⟨u, x, e, hx⟩ := or_last gs h.1 h.2.1
  rw [e]
  simp [rstripSemi, List.dropWhile, hx]

/-! ### the clause added for a group -/

theorem group_str (g : Text) (h : ExtraGroup g) : (Word.str false g).Ok := by
  intro c hc
  right
  obtain ⟨hi, hJ⟩ := h c hc
  have key : ∀ n : Fin 128, isIdent (Char.ofNat n.1) = true → Char.ofNat n.1 ≠ 'J' → Char.ofNat n.1 ∈ markerStrChars := by
    decide +kernel
  have hlt : c.toNat < 128 := by
    simp only [isIdent, isAlnum, isDigit, isLower, isUpper, Bool.or_eq_true, beq_iff_eq, Bool.and_eq_true,
      decide_eq_true_eq] at hi
    rcases hi with ((h | rfl) | rfl) | rfl
    · omega
    · decide
    · decide
    · decide
  have := key ⟨c.toNat, hlt⟩
  simp only [Char.ofNat_toNat] at this
  exact this hi hJ

/-- The clause as an expression. -/
def clauseExpr (g : Text) : Markers.Expr :=
  [[.atom [] (.name ['e', 'x', 't', 'r', 'a']) [] .eq [] (.str false g) []]]

theorem clause_ok (g : Text) (h : ExtraGroup g) : ExprOk (clauseExpr g) := by
  have hn : (Word.name ['e', 'x', 't', 'r', 'a']).Ok := ⟨'e', ['x', 't', 'r', 'a'], rfl, by decide, by decide⟩
  refine ⟨by simp [clauseExpr], ?_, by simp [clauseExpr]⟩
  simp only [clauseExpr, groupsOk, piecesOk, Piece.Ok]
  exact ⟨by simp, ⟨⟨by simp [Blank], by simp [Blank], by simp [Blank], by simp [Blank], hn, trivial, group_str g h,
    by simp [OpWord.isWordy]⟩, trivial⟩, trivial⟩

theorem clause_text (g : Text) : Markers.orText (clauseExpr g) = extraClause g := by
  simp [clauseExpr, Markers.orText, andText, Piece.text, Word.text, OpWord.text, quoteChar, extraClause]

theorem extra_operand (b1 b2 b3 : Text) (d : Bool) (g : Text) (c : Ctx) :
    (Piece.atom [] (.name ['e', 'x', 't', 'r', 'a']) b1 .eq b2 (.str d g) b3).value c = .ok (decide (g ∈ c.extras)) := by
  simp only [Piece.value]
  have e : (Word.name ['e', 'x', 't', 'r', 'a']).operand = .extra := by
    simp only [Word.operand]; rw [if_pos (by decide)]
  rw [e]
  exact (marker_extra c g).1

theorem clause_value (g : Text) (c : Ctx) : exprValue c (clauseExpr g) = .ok (decide (g ∈ c.extras)) := by
  simp only [exprValue, clauseExpr, groupValues, pieceValues, extra_operand]
  cases decide (g ∈ c.extras) <;> rfl

/-- A requirement without marker gets the clause of its group. -/
theorem optional_plain (g : Text) (hg : ExtraGroup g) (d : Dep) (h : d.marker = none) :
    ∃ m, optionalDep g d = .ok { d with marker := some m } ∧ ∀ c, m.evaluate c = .ok (decide (g ∈ c.extras)) := by
  obtain ⟨m, h1, _, h2⟩ := marker_precedence (clauseExpr g) (clause_ok g hg) [] (Or.inl rfl)
  refine ⟨m, ?_, fun c => by rw [h2, clause_value]⟩
  simp only [optionalDep, h, keepsMarker, newMarkerText]
  rw [← clause_text]
  simp only [List.append_nil] at h1
  simp [parseMarker, h1, Except.map]

/-- A requirement with a marker that does not start with the clause keeps its marker; the clause is not read. -/
theorem optional_marked (g : Text) (d : Dep) (m : EnvMarker) (h : d.marker = some m) (hm : MarkerOk m)
    (hk : namesExtra g m.expr = false) :
    ∃ m', optionalDep g d = .ok { d with marker := some m' } ∧ m'.expr = m.expr ∧ ∀ c, m'.evaluate c = m.evaluate c := by
  obtain ⟨_, gs, hgs, ht, hv⟩ := hm
  obtain ⟨m', h1, h2, h3⟩ := marker_precedence gs hgs (';' :: extraClause g) (Or.inr (Or.inl ⟨_, rfl⟩))
  refine ⟨m', ?_, by rw [h2, ht], fun c => by rw [h3, hv]⟩
  simp only [optionalDep, h, keepsMarker, hk, newMarkerText]
  rw [ht, rstrip_or gs hgs]
  simp [parseMarker, h1, Except.map]

theorem matchGroup_self (g R : Text) (h : ExtraGroup g) : matchGroup g (g ++ R) = some R := by
  induction g with
  | nil => rfl
  | cons c cs ih =>
    have hc := (h c (by simp)).1
    have hn : c ≠ '\n' := by rintro rfl; revert hc; decide
    simp only [List.cons_append, matchGroup]
    have := ih (fun x hx => h x (List.mem_cons_of_mem _ hx))
    by_cases hd : c = '.' <;> simp [hd, this, hn]

theorem names_guarded (g : Text) (hg : ExtraGroup g) (b1 b2 : Text) (d : Bool) (h1 : Blank b1) (h2 : Blank b2) (R : Text) :
    namesExtra g (['e', 'x', 't', 'r', 'a'] ++ (b1 ++ (['=', '='] ++ (b2 ++ (quoteChar d :: (g ++ quoteChar d :: R)))))) = true := by
  simp only [namesExtra, matchLit_append]
  rw [skipWs_append b1 _ h1 (by simp; decide), matchLit_append]
  simp only
  rw [skipWs_append b2 _ h2 (by cases d <;> simp [quoteChar] <;> decide)]
  cases d <;> simp [quoteChar, matchQuoted, matchGroup_self g _ hg]

theorem guarded_text (g : Text) (b1 b2 b3 : Text) (d : Bool) (rest : List Piece) : ∃ R,
    Markers.orText [.atom [] (.name ['e', 'x', 't', 'r', 'a']) b1 .eq b2 (.str d g) b3 :: rest] =
      ['e', 'x', 't', 'r', 'a'] ++ (b1 ++ (['=', '='] ++ (b2 ++ (quoteChar d :: (g ++ quoteChar d :: R))))) := by
  cases rest with
  | nil => exact ⟨b3, by simp [Markers.orText, andText, Piece.text, Word.text, OpWord.text]⟩
  | cons q qs => exact ⟨b3 ++ ('a' :: 'n' :: 'd' :: andText (q :: qs)),
      by simp [Markers.orText, andText, Piece.text, Word.text, OpWord.text]⟩

/-- A requirement of a group is wanted iff the group is requested and its own marker holds. -/
theorem optional_of_group (g : Text) (hg : ExtraGroup g) (d : Dep) (h : OfGroup g d) (c : Ctx) (hc : Defined c d) :
    ∃ d', optionalDep g d = .ok d' ∧ required d' = required d ∧
      isApplicable c d' = .ok (decide (g ∈ c.extras) && holds c d) := by
  cases h with
  | plain h =>
    obtain ⟨m, h1, h2⟩ := optional_plain g hg d h
    exact ⟨_, h1, rfl, by simp [isApplicable, h2, holds, h]⟩
  | guarded m b1 b2 b3 db rest hm hok ht hv =>
    obtain ⟨R, hR⟩ := guarded_text g b1 b2 b3 db rest
    have hp := hok.2.1
    simp only [groupsOk, piecesOk, Piece.Ok] at hp
    have hn := names_guarded g hg b1 b2 db hp.2.1.1.2.1 hp.2.1.1.2.2.1 R
    refine ⟨d, ?_, rfl, ?_⟩
    · have hk : keepsMarker g d.marker = true := by
        rw [hm]
        change namesExtra g m.expr = true
        rw [ht, hR]
        exact hn
      simp [optionalDep, hk]
    · simp only [isApplicable, hm, holds, hv]
      obtain ⟨b, hb⟩ := hc m hm
      rw [hv] at hb
      rw [hb]
      by_cases hin : g ∈ c.extras
      · simp [hin]
      · simp only [exprValue, groupValues, pieceValues, extra_operand] at hb
        rw [decide_eq_false hin] at hb ⊢
        cases b with
        | false => simp
        | true => simp [allOf, anyOf] at hb

theorem applicable_append (c : Ctx) (a b x y : List Dep) (ha : applicable c a = .ok x) (hb : applicable c b = .ok y) :
    applicable c (a ++ b) = .ok (x ++ y) := by
  induction a generalizing x with
  | nil => simp [applicable] at ha; subst ha; simpa using hb
  | cons d ds ih =>
    simp only [applicable, List.cons_append] at ha ⊢
    cases hd : isApplicable c d with
    | error e => rw [hd] at ha; simp at ha
    | ok v =>
      rw [hd] at ha
      cases v with
      | false => simp only at ha ⊢; exact ih x ha
      | true =>
        simp only at ha ⊢
        cases hr : applicable c ds with
        | error e => rw [hr] at ha; simp [Except.map] at ha
        | ok z =>
          rw [hr] at ha
          simp [Except.map] at ha
          subst ha
          rw [ih z hr]
          rfl

theorem applicable_own (c : Ctx) (ds : List Dep) (h : ∀ d, d ∈ ds → Defined c d) :
    applicable c ds = .ok (ds.filter (holds c)) := by
  induction ds with
  | nil => rfl
  | cons d ds ih =>
    have h1 := ih (fun x hx => h x (List.mem_cons_of_mem _ hx))
    have h2 : isApplicable c d = .ok (holds c d) := by
      cases hm : d.marker with
      | none => simp [isApplicable, holds, hm]
      | some m =>
        obtain ⟨b, hb⟩ := h d (by simp) m hm
        simp [isApplicable, holds, hm, hb]
    simp only [applicable, h2]
    cases hh : holds c d <;> simp [h1, hh, Except.map]

theorem group_applicable (g : Text) (hg : ExtraGroup g) (c : Ctx) (ds : List Dep)
    (h : ∀ d, d ∈ ds → OfGroup g d ∧ Defined c d) :
    ∃ l x, groupDeps g ds = .ok l ∧ applicable c l = .ok x ∧
      x.map required = ((if g ∈ c.extras then ds.filter (holds c) else []).map required) := by
  induction ds with
  | nil => exact ⟨[], [], rfl, rfl, by simp⟩
  | cons d ds ih =>
    obtain ⟨l, x, h1, h2, h3⟩ := ih (fun y hy => h y (List.mem_cons_of_mem _ hy))
    obtain ⟨d', e1, e2, e3⟩ := optional_of_group g hg d (h d (by simp)).1 c (h d (by simp)).2
    by_cases hin : g ∈ c.extras
    · simp only [hin, if_true, decide_true, Bool.true_and] at h3 e3 ⊢
      refine ⟨d' :: l, if holds c d then d' :: x else x, by simp [groupDeps, e1, h1, Except.map], ?_, ?_⟩
      · simp only [applicable, e3]
        cases holds c d <;> simp [h2, Except.map]
      · cases hh : holds c d <;> simp [hh, h3, e2]
    · simp only [hin, if_false, decide_false, Bool.false_and] at h3 e3 ⊢
      refine ⟨d' :: l, x, by simp [groupDeps, e1, h1, Except.map], ?_, h3⟩
      simp only [applicable, e3]
      exact h2

theorem optional_applicable (c : Ctx) (gs : List (Text × List Dep))
    (h : ∀ g, g ∈ gs → ExtraGroup g.1 ∧ ∀ d, d ∈ g.2 → OfGroup g.1 d ∧ Defined c d) :
    ∃ l x, optionalDeps gs = .ok l ∧ applicable c l = .ok x ∧ x.map required =
      ((gs.filter (fun g => decide (g.1 ∈ c.extras))).flatMap (fun g => g.2.filter (holds c))).map required := by
  induction gs with
  | nil => exact ⟨[], [], rfl, rfl, by simp⟩
  | cons g gs ih =>
    obtain ⟨g, ds⟩ := g
    obtain ⟨l, x, h1, h2, h3⟩ := ih (fun y hy => h y (List.mem_cons_of_mem _ hy))
    obtain ⟨hg, hd⟩ := h (g, ds) (by simp)
    obtain ⟨l', x', e1, e2, e3⟩ := group_applicable g hg c ds hd
    refine ⟨l' ++ l, x' ++ x, by simp [optionalDeps, e1, h1, Except.map], applicable_append c _ _ _ _ e2 h2, ?_⟩
    by_cases hin : g ∈ c.extras <;> simp [hin, h3] <;> simpa [hin] using e3

/-- C63: the dependencies of a project for an environment and a set of extras are exactly what it needs: its own requirements
whose markers hold and those of the requested groups, in order. What is missing: requirements of groups that have a marker of
their own, other than one starting with `extra == 'group' and` (`project_marker_violated`), and group names with a capital J
(`project_group_letter_violated`). -/
theorem project_dependencies_partial (c : Ctx) (deps : List Dep) (optional : List (Text × List Dep))
    (hd : ∀ d, d ∈ deps → Defined c d)
    (ho : ∀ g, g ∈ optional → ExtraGroup g.1 ∧ ∀ d, d ∈ g.2 → OfGroup g.1 d ∧ Defined c d) :
    ∃ l, projectDependencies c deps optional = .ok l ∧ l.map required = (needed c deps optional).map required := by
  obtain ⟨l, x, h1, h2, h3⟩ := optional_applicable c optional ho
  refine ⟨deps.filter (holds c) ++ x, ?_, ?_⟩
  · simp only [projectDependencies, allDependencies, h1, Except.map]
    exact applicable_append c _ _ _ _ (applicable_own c deps hd) h2
  · simp [needed, h3]

/-- C63 without extras: no requirement of a group is a dependency, whatever the groups are, if they fit the hypotheses. -/
theorem project_no_extras_partial (c : Ctx) (deps : List Dep) (optional : List (Text × List Dep)) (hx : c.extras = [])
    (hd : ∀ d, d ∈ deps → Defined c d)
    (ho : ∀ g, g ∈ optional → ExtraGroup g.1 ∧ ∀ d, d ∈ g.2 → OfGroup g.1 d ∧ Defined c d) :
    ∃ l, projectDependencies c deps optional = .ok l ∧ l.map required = (deps.filter (holds c)).map required := by
  obtain ⟨l, h1, h2⟩ := project_dependencies_partial c deps optional hd ho
  refine ⟨l, h1, ?_⟩
  rw [h2]
  have : optional.filter (fun g => decide (g.1 ∈ c.extras)) = [] := by simp [hx]
  simp [needed, this]

/-- Two groups and an own requirement, `test` requested: `a` and `t` are needed, `d` is not. -/
example (urls : UrlEnv) :
    let c : Ctx := ⟨fun _ => none, [['t', 'e', 's', 't']], fun _ => [], urls⟩
    let a : Dep := { name := ['a'] }
    let t : Dep := { name := ['t'] }
    let d : Dep := { name := ['d'] }
    let opt := [(['d', 'o', 'c'], [d]), (['t', 'e', 's', 't'], [t])]
    (∀ x, x ∈ [a] → Defined c x) ∧
    (∀ g, g ∈ opt → ExtraGroup g.1 ∧ ∀ x, x ∈ g.2 → OfGroup g.1 x ∧ Defined c x) ∧
    (needed c [a] opt).map required = [required a, required t] := by
  refine ⟨by simp [Defined], ?_, rfl⟩
  intro g hg
  simp at hg
  rcases hg with rfl | rfl
  · refine ⟨by intro x hx; simp at hx; rcases hx with rfl | rfl | rfl <;> decide, ?_⟩
    intro x hx; simp at hx; subst hx
    exact ⟨.plain rfl, by simp [Defined]⟩
  · refine ⟨by intro x hx; simp at hx; rcases hx with rfl | rfl | rfl | rfl <;> decide, ?_⟩
    intro x hx; simp at hx; subst hx
    exact ⟨.plain rfl, by simp [Defined]⟩

/-- C63 fails for every optional requirement with a marker of its own that does not name the extra: whenever that marker holds,
the requirement is a dependency although its group was not requested. -/
theorem project_marker_violated (c : Ctx) (g : Text) (d : Dep) (m : EnvMarker) (h : d.marker = some m) (hm : MarkerOk m)
    (hk : namesExtra g m.expr = false) (hv : m.evaluate c = .ok true) (hg : g ∉ c.extras) :
    (∃ l, projectDependencies c [] [(g, [d])] = .ok l ∧ l.map required = [required d]) ∧ needed c [] [(g, [d])] = [] := by
  obtain ⟨m', h1, _, h2⟩ := optional_marked g d m h hm hk
  refine ⟨⟨[{ d with marker := some m' }], ?_, rfl⟩, by simp [needed, hg]⟩
  simp [projectDependencies, allDependencies, optionalDeps, groupDeps, h1, Except.map, applicable, isApplicable, h2, hv]

/-- The marker `'a' in 'a'` meets the hypotheses, for the group `test`. -/
example (c : Ctx) : ∃ m : EnvMarker, MarkerOk m ∧ namesExtra ['t', 'e', 's', 't'] m.expr = false ∧ m.evaluate c = .ok true := by
  let e : Markers.Expr := [[.atom [] (.str false ['a']) [' '] .isIn [' '] (.str false ['a']) []]]
  have hs : (Word.str false ['a']).Ok := by
    intro c hc; simp at hc; subst hc; right; decide
  have he : ExprOk e := by
    refine ⟨by simp [e], ?_, by simp [e]⟩
    simp only [e, groupsOk, piecesOk, Piece.Ok]
    refine ⟨by simp, ⟨⟨by simp [Blank], ?_, ?_, by simp [Blank], hs, trivial, hs, by simp [Word.isName]⟩, trivial⟩, trivial⟩ <;>
      (simp [Blank]; decide)
  obtain ⟨m, _, h2, h3⟩ := marker_precedence e he [] (Or.inl rfl)
  refine ⟨m, ⟨?_, e, he, h2, h3⟩, ?_, ?_⟩
  · rw [h2]; simp [NoLead, e, Markers.orText, andText, Piece.text, Word.text, quoteChar]; decide
  · rw [h2]; rfl
  · rw [h3]
    have h4 := (marker_in c (.str ['a']) (.str ['a']) ['a'] ['a'] rfl rfl).1.mpr ⟨[], [], rfl⟩
    simp only [exprValue, e, groupValues, pieceValues, Piece.value, Word.operand, OpWord.op, h4]
    rfl

/-- C63 fails for a group whose name has a capital J: the project has no dependencies at all, with or without extras. -/
theorem project_group_letter_violated (c : Ctx) (deps : List Dep) (d : Dep) (h : d.marker = none) :
    projectDependencies c deps [(['J'], [d])] = .error .value := by
  have : parseMarker (extraClause ['J']) = .error .value := by rfl
  simp [projectDependencies, allDependencies, optionalDeps, groupDeps, optionalDep, h, keepsMarker, newMarkerText, this, Except.map]

end Projects
end Pkm
