import Verif.Markers.Versions
set_option linter.unusedVariables false
/-
Property C42: environment markers follow boolean precedence. `Spec.lean` is the specification.
-/
namespace Pkm.Markers
open PS Spec VSpec

/-- C42: every well formed expression, followed by nothing, `;` or `)`, is read completely; the marker
keeps its text, and evaluates on every environment and every list of extras to the value of the
expression: some group of `or` holds, of which every piece joined by `and` holds, expressions in
parentheses first. Exceptions are part of the value: operands are evaluated from left to right up to
the first that decides. -/
theorem marker_precedence (gs : Expr) (h : ExprOk gs) (R : Text)
    (hR : R = [] ∨ (∃ u, R = ';' :: u) ∨ ∃ u, R = ')' :: u) :
    ∃ m, readMarker (orText gs ++ R) = .ok (m, R) ∧ m.expr = orText gs ∧
      ∀ c, m.evaluate c = exprValue c gs := by
  have hend : atEnd R = true := by rcases hR with rfl | ⟨u, rfl⟩ | ⟨u, rfl⟩ <;> rfl
  obtain ⟨m, h1, h2⟩ := (read_text (4 * (orText gs ++ R).length + 8)).2.1 gs R h (by simp; omega) hend
  refine ⟨⟨orText gs, m⟩, ?_, rfl, h2⟩
  simp only [readMarker, h1]
  simp

/-- C42: only well formed expressions are read, and they have the value of the expression. So the
texts accepted are exactly those of well formed expressions. -/
theorem marker_read_sound (t R : Text) (m : EnvMarker) (h : readMarker t = .ok (m, R)) :
    ∃ gs, ExprOk gs ∧ t = orText gs ++ R ∧ m.expr = orText gs ∧ ∀ c, m.evaluate c = exprValue c gs := by
  simp only [readMarker] at h
  cases hc : readCompound (4 * t.length + 8) t with
  | error e => rw [hc] at h; simp at h
  | ok x =>
    obtain ⟨e, R'⟩ := x
    rw [hc] at h
    simp at h
    obtain ⟨rfl, rfl⟩ := h
    obtain ⟨gs, hgs, ht, _, hv⟩ := (read_ok _).2.1 t R' e hc
    refine ⟨gs, hgs, ht, ?_, hv⟩
    simp [ht]

/-- C42: a text has one value, however it is cut into pieces. -/
theorem marker_unambiguous (a b : Expr) (ha : ExprOk a) (hb : ExprOk b) (h : orText a = orText b) :
    ∀ c, exprValue c a = exprValue c b := by
  intro c
  obtain ⟨m, h1, _, h2⟩ := marker_precedence a ha [] (Or.inl rfl)
  obtain ⟨m', h1', _, h2'⟩ := marker_precedence b hb [] (Or.inl rfl)
  rw [h] at h1
  rw [h1] at h1'
  simp at h1'
  subst h1'
  rw [← h2, h2']

/-- `a == 'x'` -/
private def exA : Piece :=
  .atom [] (.name ['a']) [' '] .eq [' '] (.str false ['x']) [' ']
/-- `(b not in c or a == 'x')` -/
private def exB : Piece :=
  .paren [' '] [[.atom [] (.name ['b']) [' '] (.notIn [' ']) [' '] (.name ['c']) [' ']], [exA]] []

/-- The hypotheses are met by `a == 'x' or a == 'x' and (b not in c or a == 'x')`. -/
example : ExprOk [[exA], [exA, exB]] ∧ orText [[exA], [exA, exB]] =
    "a == 'x' ora == 'x' and (b not in c ora == 'x' )".toList := by
  have hsp : Blank [' '] := by simp [Blank]; decide
  have hnil : Blank [] := by simp [Blank]
  have hn : ∀ c : Char, isAlpha c = true → (Word.name [c]).Ok := fun c h => ⟨c, [], rfl, h, by simp⟩
  have hs : (Word.str false ['x']).Ok := by
    intro c hc; simp at hc; subst hc; right; decide
  have ha : exA.Ok := by
    simp only [exA, Piece.Ok]
    exact ⟨hnil, hsp, hsp, hsp, hn 'a' (by decide), trivial, hs, by simp⟩
  have hb : exB.Ok := by
    simp only [exB, Piece.Ok, groupsOk, piecesOk]
    refine ⟨hsp, hnil, by simp, ⟨by simp, ⟨⟨hnil, hsp, hsp, hsp, hn 'b' (by decide), ?_, hn 'c' (by decide),
      by simp⟩, trivial⟩, by simp, ⟨ha, trivial⟩, trivial⟩, by simp [Piece.closed]⟩
    intro c hc; simp at hc; subst hc; decide
  refine ⟨⟨by simp, ?_, by simp [exA, Piece.closed]⟩, by decide⟩
  simp only [groupsOk, piecesOk]
  exact ⟨by simp, ⟨ha, trivial⟩, by simp, ⟨ha, hb, trivial⟩, trivial⟩

/-- With `a and b or c` false, true, true: the reading `a and (b or c)` would be false. -/
example : anyOf [allOf [.ok false, .ok true], allOf [.ok true]] = .ok true ∧
    allOf [.ok false, anyOf [.ok true, .ok true]] = .ok false := ⟨rfl, rfl⟩

/-! ## comparisons -/

/-- C42: `extra == 'e'` and `'e' == extra` hold iff the extra was requested. -/
theorem marker_extra (c : Ctx) (e : Text) :
    compareOperands c .extra .eq (.str e) = .ok (decide (e ∈ c.extras)) ∧
    compareOperands c (.str e) .eq .extra = .ok (decide (e ∈ c.extras)) := by
  have : List.contains c.extras e = decide (e ∈ c.extras) := by
    simp [List.contains_eq_mem]
  constructor
  · change Except.ok (c.extras.contains e) = _; rw [this]
  · change Except.ok (c.extras.contains e) = _; rw [this]

/-- C42: a marker the environment does not define raises `KeyError`. -/
theorem marker_unknown (c : Ctx) (n : Text) (op : Op) (r : Operand) (h : c.markers n = Option.none) :
    compareOperands c (.name n) op r = .error (.key n) := by
  simp [compareOperands, Operand.eval, h, bind, Except.bind]

/-- C42: comparing a version of the environment with a version literal by `<=`, `<`, `>=`, `>`, `==`,
`!=` or `~=` (`==`, `!=` also with `.*`) gives the PEP 440 comparison; proved for final releases in the
environment and literals in normal form. -/
theorem marker_version_partial (c : Ctx) (n : Text) (w : SV) (k : Clause) (hk : k.Wf)
    (hw : Final w) (hp : Printable w) (hn : c.markers n = some w.show) :
    ∃ b, compareOperands c (.name n) (clauseOp k) (.str (clauseBody k)) = .ok b ∧
      (b = true ↔ k.Means w) := by
  obtain ⟨s, hs, _, _, hm⟩ := clauseSpec_means k hk
  have h1 := parseSpecifier_space c.urls k hk s hs
  have h2 := version_text_round_trip c.urls w hp
  refine ⟨s.allows (.std w), ?_, hm w hw⟩
  have h3 : compareOperands c (.name n) (clauseOp k) (.str (clauseBody k)) =
      compare c (clauseOp k) (.text w.show) (.text (clauseBody k)) := by
    simp [compareOperands, Operand.eval, hn, bind, Except.bind]
  rw [h3]
  cases k <;> (simp only [clauseOp, compare, OVal.str, versionCompare] at h1 ⊢; rw [h1, h2])

/-- C42: comparing with a text that starts with a letter (other than `v`) compares texts. -/
theorem marker_string_partial (c : Ctx) (n a : Text) (x : Char) (xs : Text) (hx : isAlpha x = true)
    (hv : x ≠ 'v' ∧ x ≠ 'V') (hn : c.markers n = some a) :
    compareOperands c (.name n) .eq (.str (x :: xs)) = .ok (decide (a = x :: xs)) ∧
    compareOperands c (.name n) .ne (.str (x :: xs)) = .ok (decide (a ≠ x :: xs)) ∧
    compareOperands c (.name n) .lt (.str (x :: xs)) = .ok (strLt a (x :: xs)) ∧
    compareOperands c (.name n) .gt (.str (x :: xs)) = .ok (strLt (x :: xs) a) ∧
    compareOperands c (.name n) .le (.str (x :: xs)) = .ok (strLt a (x :: xs) || decide (a = x :: xs)) ∧
    compareOperands c (.name n) .ge (.str (x :: xs)) = .ok (strLt (x :: xs) a || decide (a = x :: xs)) := by
  have hv' : lowerChar x ≠ 'v' := by
    intro h
    cases hu : isUpper x with
    | false => simp [lowerChar, hu] at h; exact hv.1 h
    | true =>
      simp only [lowerChar, hu, if_true] at h
      simp only [isUpper, Bool.and_eq_true, decide_eq_true_eq] at hu
      have key : ∀ n : Fin 26, Char.ofNat (n.1 + 65 + 32) = 'v' → n.1 = 21 := by decide
      have h2 := key ⟨x.toNat - 65, by omega⟩ (by
        have : x.toNat - 65 + 65 + 32 = x.toNat + 32 := by omega
        simp only [this]; exact h)
      have h3 : x = 'V' := by
        apply Char.toNat_inj.1
        change x.toNat = 86
        simp only at h2
        omega
      exact hv.2 h3
  have he := fun op h => parseSpecifier_letter c.urls op x xs hx hv' h
  have e : (a == x :: xs) = decide (a = x :: xs) := by
    rw [Bool.eq_iff_iff]; simp
  refine ⟨?_, ?_, ?_, ?_, ?_, ?_⟩
  · simp [compareOperands, Operand.eval, hn, bind, Except.bind, compare, OVal.str, versionCompare,
      he .eq (by simp), strCompare, e]
  · simp [compareOperands, Operand.eval, hn, bind, Except.bind, compare, OVal.str, versionCompare,
      he .ne (by simp), strCompare, e]
  · simp [compareOperands, Operand.eval, hn, bind, Except.bind, compare, OVal.str, versionCompare,
      he .lt (by simp), strCompare]
  · simp [compareOperands, Operand.eval, hn, bind, Except.bind, compare, OVal.str, versionCompare,
      he .gt (by simp), strCompare]
  · simp [compareOperands, Operand.eval, hn, bind, Except.bind, compare, OVal.str, versionCompare,
      he .le (by simp), strCompare, e]
  · simp [compareOperands, Operand.eval, hn, bind, Except.bind, compare, OVal.str, versionCompare,
      he .ge (by simp), strCompare, e]

theorem contains_iff (s t : Text) : contains s t = true ↔ s <:+: t := by
  induction t with
  | nil => cases s <;> simp [contains]
  | cons c cs ih => simp [contains, ih, List.infix_cons_iff]

/-- C42: `in` asks whether the left text occurs in the right one, `not in` whether it does not; for marker
names and literals on either side. -/
theorem marker_in (c : Ctx) (l r : Operand) (a b : Text) (hl : l.eval c = .ok (.text a))
    (hr : r.eval c = .ok (.text b)) :
    (compareOperands c l .isIn r = .ok true ↔ ∃ u v, b = u ++ a ++ v) ∧
    (compareOperands c l .isIn r = .ok false ↔ ¬ ∃ u v, b = u ++ a ++ v) ∧
    (compareOperands c l .notIn r = .ok true ↔ ¬ ∃ u v, b = u ++ a ++ v) ∧
    (compareOperands c l .notIn r = .ok false ↔ ∃ u v, b = u ++ a ++ v) := by
  have e1 : compareOperands c l .isIn r = .ok (contains a b) := by
    simp [compareOperands, hl, hr, bind, Except.bind, compare, OVal.str, strCompare]
  have e2 : compareOperands c l .notIn r = .ok (!contains a b) := by
    simp [compareOperands, hl, hr, bind, Except.bind, compare, OVal.str, strCompare]
  have e3 : contains a b = true ↔ ∃ u v, b = u ++ a ++ v := by
    rw [contains_iff]
    exact ⟨fun ⟨u, v, h⟩ => ⟨u, v, h.symm⟩, fun ⟨u, v, h⟩ => ⟨u, v, h.symm⟩⟩
  rw [e1, e2, ← e3]
  cases contains a b <;> simp

/-- `'win' in sys_platform` on an environment where it is `cygwin` -/
example (urls : UrlEnv) : compareOperands ⟨fun n => if n = "sys_platform".toList then some "cygwin".toList else Option.none,
    [], fun _ => [], urls⟩ (.str "win".toList) .isIn (.name "sys_platform".toList) = .ok true :=
  (marker_in _ _ _ "win".toList "cygwin".toList rfl rfl).1.mpr ⟨"cyg".toList, [], rfl⟩

/-- The hypotheses are met by `python_version >= '3.8'` on 3.10 and `sys_platform == 'linux'`. -/
example : (Clause.ge { release := [3, 8] }).Wf ∧ Final { release := [3, 10] } ∧
    Printable { release := [3, 10] } ∧ isAlpha 'l' = true :=
  ⟨⟨⟨by simp [Clause.version], by simp [Clause.version], by simp [Clause.version]⟩,
    ⟨by simp [Clause.version], by simp [Clause.version], by simp [Clause.version]⟩, trivial⟩,
    ⟨⟨⟨by simp, by simp, by simp⟩, by simp⟩, by simp, by simp⟩,
    ⟨by simp, by simp, by simp⟩, by decide⟩

/-! ## what PEP 508 asks for and the parser does not do -/

instance : DecidableEq (Except MErr Bool)
  | .ok a, .ok b => if h : a = b then isTrue (by rw [h]) else isFalse (by simpa using h)
  | .error a, .error b => if h : a = b then isTrue (by rw [h]) else isFalse (by simpa using h)
  | .ok _, .error _ => isFalse (by simp)
  | .error _, .ok _ => isFalse (by simp)

/-- C42 fails for `===`: it is read as `==` followed by `=`, which is no operand. -/
theorem marker_arbitrary_violated :
    (parseMarker "python_version === '3.8'".toList).map (fun _ => ()) = .error .value := by rfl

/-- C42 fails for texts with a capital J. -/
theorem marker_letter_violated :
    (parseMarker "platform_python_implementation == 'Jython'".toList).map (fun _ => ()) = .error .value := by
  rfl

/-- C42 fails for `extra != 'test'`, which compares the printed list of extras: it holds although the
extra was requested. -/
theorem marker_extra_ne_violated (urls : UrlEnv) :
    compareOperands ⟨fun _ => Option.none, ["test".toList], fun _ => "['test']".toList, urls⟩ .extra .ne
      (.str "test".toList) = .ok true := by
  have := parseSpecifier_letter urls .ne 't' "est".toList (by decide) (by decide) (by simp)
  simp only [compareOperands, Operand.eval, bind, Except.bind, compare, versionCompare, OVal.str]
  have e : (Op.ne.text ++ ' ' :: "test".toList) = Op.ne.text ++ (' ' :: 't' :: "est".toList) := by decide
  rw [e, this]
  rfl

end Pkm.Markers
