import Verif.Markers.Chains
import Verif.VersionText.Props
set_option linter.unusedVariables false
set_option linter.unusedSimpArgs false
/-
Comparisons of versions in markers: the operator, a blank and the version (em 79) are read like the
clause without the blank.
-/
namespace Pkm.Markers
open PS Spec VSpec

/-- The marker operator of a clause. -/
def clauseOp : Clause → Op
  | .ge _ => .ge | .gt _ => .gt | .le _ => .le | .lt _ => .lt
  | .eq _ | .eqStar _ => .eq
  | .ne _ | .neStar _ => .ne
  | .tilde _ => .compat

/-- What a clause has after its operator. -/
def clauseBody : Clause → Text
  | .eqStar v | .neStar v => v.show ++ ['.', '*']
  | c => c.version.show

theorem ws_space (pv X : Text) : PS.ws ⟨pv, ' ' :: X⟩ = PS.ws ⟨' ' :: pv, X⟩ := by
  have : isSpace ' ' = true := by decide
  simp [PS.ws, untilP, List.takeWhile, List.dropWhile, this]

theorem ws_first (c : Char) (cs : Text) (h : isSpace c = false) : PS.ws ⟨[], c :: cs⟩ = ⟨[], c :: cs⟩ :=
  ws_none _ _ h

theorem readEquality_space (neg : Bool) (pv X : Text) :
    readEquality neg ⟨pv, ' ' :: X⟩ = readEquality neg ⟨' ' :: pv, X⟩ := by
  unfold readEquality; rw [ws_space]

theorem readComparison_space (lo inc : Bool) (pv X : Text) :
    readComparison lo inc ⟨pv, ' ' :: X⟩ = readComparison lo inc ⟨' ' :: pv, X⟩ := by
  unfold readComparison; rw [ws_space]

theorem readTilde_space (pv X : Text) :
    readTilde ⟨pv, ' ' :: X⟩ = readTilde ⟨' ' :: pv, X⟩ := by
  unfold readTilde; rw [ws_space]

attribute [local irreducible] readEquality readComparison readTilde SV.show

theorem readClause_space (env : UrlEnv) (c : Clause) (hc : c.Wf) (s : VSpec)
    (hs : clauseSpec c = .ok s) :
    ∃ p, readClause env ⟨[], (clauseOp c).text ++ (' ' :: clauseBody c)⟩ = .ok (s, p) ∧ p.rest = [] := by
  obtain ⟨hp, hpl, hx⟩ := hc
  cases c with
  | ge v =>
    simp only [clauseSpec, Except.ok.injEq] at hs; subst hs
    obtain ⟨p, h1, h2⟩ := readComparison_plain v hp hpl true true (' ' :: '=' :: '>' :: []) [] (Or.inl rfl)
    refine ⟨p, ?_, h2⟩
    rw [← readComparison_space, List.append_nil] at h1
    simp only [readClause, clauseOp, clauseBody, Clause.version, Op.text, List.cons_append,
      List.nil_append, ws_first '>' _ (by decide)]
    simpa [lit, litAny, List.isPrefixOf, adv, clauseBase] using h1
  | gt v =>
    simp only [clauseSpec, Except.ok.injEq] at hs; subst hs
    obtain ⟨p, h1, h2⟩ := readComparison_plain v hp hpl true false (' ' :: '>' :: []) [] (Or.inl rfl)
    refine ⟨p, ?_, h2⟩
    rw [← readComparison_space, List.append_nil] at h1
    simp only [readClause, clauseOp, clauseBody, Clause.version, Op.text, List.cons_append,
      List.nil_append, ws_first '>' _ (by decide)]
    simpa [lit, litAny, List.isPrefixOf, adv, clauseBase] using h1
  | le v =>
    simp only [clauseSpec, Except.ok.injEq] at hs; subst hs
    obtain ⟨p, h1, h2⟩ := readComparison_plain v hp hpl false true (' ' :: '=' :: '<' :: []) [] (Or.inl rfl)
    refine ⟨p, ?_, h2⟩
    rw [← readComparison_space, List.append_nil] at h1
    simp only [readClause, clauseOp, clauseBody, Clause.version, Op.text, List.cons_append,
      List.nil_append, ws_first '<' _ (by decide)]
    simpa [lit, litAny, List.isPrefixOf, adv, clauseBase] using h1
  | lt v =>
    simp only [clauseSpec, Except.ok.injEq] at hs; subst hs
    obtain ⟨p, h1, h2⟩ := readComparison_plain v hp hpl false false (' ' :: '<' :: []) [] (Or.inl rfl)
    refine ⟨p, ?_, h2⟩
    rw [← readComparison_space, List.append_nil] at h1
    simp only [readClause, clauseOp, clauseBody, Clause.version, Op.text, List.cons_append,
      List.nil_append, ws_first '<' _ (by decide)]
    simpa [lit, litAny, List.isPrefixOf, adv, clauseBase] using h1
  | eq v =>
    simp only [clauseSpec, Except.ok.injEq] at hs; subst hs
    obtain ⟨p, h1, h2⟩ := readEquality_plain v hp hpl false (' ' :: '=' :: '=' :: []) [] (Or.inl rfl)
    refine ⟨p, ?_, h2⟩
    rw [← readEquality_space, List.append_nil] at h1
    simp only [readClause, clauseOp, clauseBody, Clause.version, Op.text, List.cons_append,
      List.nil_append, ws_first '=' _ (by decide)]
    simpa [lit, litAny, List.isPrefixOf, adv, clauseBase] using h1
  | ne v =>
    simp only [clauseSpec, Except.ok.injEq] at hs; subst hs
    obtain ⟨p, h1, h2⟩ := readEquality_plain v hp hpl true (' ' :: '=' :: '!' :: []) [] (Or.inl rfl)
    refine ⟨p, ?_, h2⟩
    rw [← readEquality_space, List.append_nil] at h1
    simp only [readClause, clauseOp, clauseBody, Clause.version, Op.text, List.cons_append,
      List.nil_append, ws_first '!' _ (by decide)]
    simpa [lit, litAny, List.isPrefixOf, adv, clauseBase] using h1
  | eqStar v =>
    obtain ⟨p, h1, h2⟩ := readEquality_star v hp hx false (' ' :: '=' :: '=' :: []) [] s hs
    refine ⟨p, ?_, h2⟩
    rw [← readEquality_space] at h1
    simp only [readClause, clauseOp, clauseBody, Clause.version, Op.text, List.cons_append,
      List.nil_append, ws_first '=' _ (by decide)]
    simpa [lit, litAny, List.isPrefixOf, adv, clauseBase] using h1
  | neStar v =>
    obtain ⟨p, h1, h2⟩ := readEquality_star v hp hx true (' ' :: '=' :: '!' :: []) [] s hs
    refine ⟨p, ?_, h2⟩
    rw [← readEquality_space] at h1
    simp only [readClause, clauseOp, clauseBody, Clause.version, Op.text, List.cons_append,
      List.nil_append, ws_first '!' _ (by decide)]
    simpa [lit, litAny, List.isPrefixOf, adv, clauseBase] using h1
  | tilde v =>
    simp only [clauseSpec, Except.ok.injEq] at hs; subst hs
    obtain ⟨p, h1, h2⟩ := readTilde_plain v hp hpl hx (' ' :: '=' :: '~' :: []) [] (Or.inl rfl)
    refine ⟨p, ?_, h2⟩
    rw [← readTilde_space, List.append_nil] at h1
    simp only [readClause, clauseOp, clauseBody, Clause.version, Op.text, List.cons_append,
      List.nil_append, ws_first '~' _ (by decide)]
    simpa [lit, litAny, List.isPrefixOf, adv, clauseBase] using h1

theorem clauseOp_first (c : Clause) (X : Text) :
    ∃ k ks, (clauseOp c).text ++ X = k :: ks ∧ isSpace k = false ∧ k ≠ '(' := by
  cases c <;> exact ⟨_, _, rfl, by decide, by decide⟩

theorem clauseBody_chars (c : Clause) (hc : c.Wf) :
    ∀ x, x ∈ (clauseOp c).text ++ (' ' :: clauseBody c) → isUpper x = false := by
  have h := fun x hx => showChar_not_upper x (show_chars c.version hc.1 x hx)
  have hb : ∀ x, x ∈ clauseBody c → isUpper x = false := by
    intro x hx
    cases c <;> simp only [clauseBody, Clause.version, List.mem_append] at hx h
    all_goals first
      | exact h x hx
      | (rcases hx with hx | hx
         · exact h x hx
         · simp at hx; rcases hx with rfl | rfl <;> decide)
  intro x hx
  simp only [List.mem_append, List.mem_cons] at hx
  rcases hx with hx | rfl | hx
  · cases c <;> simp [clauseOp, Op.text] at hx <;>
      first | (rcases hx with rfl | rfl <;> decide) | (subst hx; decide)
  · decide
  · exact hb x hx

/-- `VersionSpecifier.parse(f"{op} {version}")`. -/
theorem parseSpecifier_space (env : UrlEnv) (c : Clause) (hc : c.Wf) (s : VSpec)
    (hs : clauseSpec c = .ok s) :
    parseSpecifier env ((clauseOp c).text ++ (' ' :: clauseBody c)) = .ok s := by
  unfold parseSpecifier readSpecifier
  rw [lower_id _ (clauseBody_chars c hc)]
  obtain ⟨p, h1, h2⟩ := readClause_space env c hc s hs
  obtain ⟨k, ks, hk, hk1, hk2⟩ := clauseOp_first c (' ' :: clauseBody c)
  rw [hk] at h1 ⊢
  have hws : PS.ws (PS.ofText (k :: ks)) = ⟨[], k :: ks⟩ := ws_none _ _ hk1
  have hl : lit ['('] ⟨[], k :: ks⟩ = Option.none := by
    simp [lit, List.isPrefixOf, Ne.symm hk2]
  have hpw : p.ws = p := by rw [ps_eta p [] h2]; exact ws_none _ _ (by simp)
  have hl2 : p.lit [','] = Option.none := by rw [ps_eta p [] h2]; simp [lit]
  simp only [hws, hl, readClauses, h1, inter_all_left, liftS, bind, Except.bind, hpw, hl2, h2,
    Except.map]

/-! ### texts that are no versions -/

theorem lower_letter (c : Char) (h : isAlpha c = true) : isLower (lowerChar c) = true := by
  cases hu : isUpper c with
  | false =>
    simp [isAlpha, hu] at h
    simp [lowerChar, hu, h]
  | true =>
    simp only [isUpper, Bool.and_eq_true, decide_eq_true_eq] at hu
    have : ∀ n : Nat, 65 ≤ n → n ≤ 90 → isLower (Char.ofNat (n + 32)) = true := by
      intro n h1 h2
      have : n = 65 ∨ n = 66 ∨ n = 67 ∨ n = 68 ∨ n = 69 ∨ n = 70 ∨ n = 71 ∨ n = 72 ∨ n = 73 ∨ n = 74 ∨
        n = 75 ∨ n = 76 ∨ n = 77 ∨ n = 78 ∨ n = 79 ∨ n = 80 ∨ n = 81 ∨ n = 82 ∨ n = 83 ∨ n = 84 ∨
        n = 85 ∨ n = 86 ∨ n = 87 ∨ n = 88 ∨ n = 89 ∨ n = 90 := by omega
      rcases this with rfl | rfl | rfl | rfl | rfl | rfl | rfl | rfl | rfl | rfl | rfl | rfl | rfl |
        rfl | rfl | rfl | rfl | rfl | rfl | rfl | rfl | rfl | rfl | rfl | rfl | rfl <;> decide
    have hc : isUpper c = true := by simp [isUpper, hu]
    simp only [lowerChar, hc, if_true]
    exact this c.toNat hu.1 hu.2

theorem readVersion_letter (pv : Text) (c : Char) (cs : Text) (hc : isLower c = true) (hv : c ≠ 'v') :
    readVersion ⟨pv, c :: cs⟩ = Option.none := by
  have ne : ∀ k : Char, isLower k = false → ¬ k = c := by
    intro k hk e; subst e; rw [hc] at hk; simp at hk
  have hs : isSpace c = false := alpha_not_space c (by simp [isAlpha, hc])
  have hd : isDigit c = false := by
    simp [isLower] at hc; simp [isDigit]; omega
  have hw : PS.ws ⟨pv, c :: cs⟩ = ⟨pv, c :: cs⟩ := ws_none _ _ hs
  have hl : ∀ k : Char, isLower k = false → lit [k] ⟨pv, c :: cs⟩ = Option.none := by
    intro k hk; simp [lit, List.isPrefixOf, ne k hk]
  have hlv : lit ['v'] ⟨pv, c :: cs⟩ = Option.none := by
    simp [lit, List.isPrefixOf, Ne.symm hv]
  have hr : readRelease ⟨pv, c :: cs⟩ = Option.none := by
    simp [readRelease, readNat, untilP, List.takeWhile, hd]
  simp only [readVersion, hw, litWs, hl '(' (by decide), openQuote, hl '\'' (by decide),
    hl '"' (by decide), skipAny, litAny, hlv, hr]

/-- Comparing with a text that starts with a letter other than `v` compares texts. -/
theorem parseSpecifier_letter (env : UrlEnv) (op : Op) (c : Char) (cs : Text) (hc : isAlpha c = true)
    (hv : lowerChar c ≠ 'v') (ho : op ≠ .isIn ∧ op ≠ .notIn) :
    parseSpecifier env (op.text ++ (' ' :: c :: cs)) = .error .value := by
  have hlow := lower_letter c hc
  have hs : isSpace (lowerChar c) = false := alpha_not_space _ (by simp [isAlpha, hlow])
  have hrv : ∀ pv, readVersion (PS.ws ⟨pv, ' ' :: lowerChar c :: lower cs⟩) = Option.none := by
    intro pv
    rw [ws_space, ws_none _ (lowerChar c :: lower cs) hs]
    exact readVersion_letter _ _ _ hlow hv
  have hE : ∀ neg pv, readEquality neg ⟨pv, ' ' :: lowerChar c :: lower cs⟩ = .error .value := by
    intro neg pv; unfold readEquality; rw [hrv]
  have hC : ∀ lo inc pv, readComparison lo inc ⟨pv, ' ' :: lowerChar c :: lower cs⟩ = .error .value := by
    intro lo inc pv; unfold readComparison; rw [hrv]
  have hT : ∀ pv, readTilde ⟨pv, ' ' :: lowerChar c :: lower cs⟩ = .error .value := by
    intro pv; unfold readTilde; rw [hrv]
  have hrc : ∀ k ks, op.text = k :: ks → (lower (op.text ++ (' ' :: c :: cs)) =
      op.text ++ (' ' :: lowerChar c :: lower cs)) := by
    intro k ks _
    cases op <;> rfl
  have key : readClause env ⟨[], op.text ++ (' ' :: lowerChar c :: lower cs)⟩ = .error .value := by
    cases op with
    | isIn => exact absurd rfl ho.1
    | notIn => exact absurd rfl ho.2
    | le =>
      simp only [readClause, Op.text, List.cons_append, List.nil_append, ws_first '<' _ (by decide)]
      simpa [lit, litAny, List.isPrefixOf, adv] using hC _ _ _
    | lt =>
      simp only [readClause, Op.text, List.cons_append, List.nil_append, ws_first '<' _ (by decide)]
      simpa [lit, litAny, List.isPrefixOf, adv] using hC _ _ _
    | ge =>
      simp only [readClause, Op.text, List.cons_append, List.nil_append, ws_first '>' _ (by decide)]
      simpa [lit, litAny, List.isPrefixOf, adv] using hC _ _ _
    | gt =>
      simp only [readClause, Op.text, List.cons_append, List.nil_append, ws_first '>' _ (by decide)]
      simpa [lit, litAny, List.isPrefixOf, adv] using hC _ _ _
    | ne =>
      simp only [readClause, Op.text, List.cons_append, List.nil_append, ws_first '!' _ (by decide)]
      simpa [lit, litAny, List.isPrefixOf, adv] using hE _ _
    | eq =>
      simp only [readClause, Op.text, List.cons_append, List.nil_append, ws_first '=' _ (by decide)]
      simpa [lit, litAny, List.isPrefixOf, adv] using hE _ _
    | compat =>
      simp only [readClause, Op.text, List.cons_append, List.nil_append, ws_first '~' _ (by decide)]
      simpa [lit, litAny, List.isPrefixOf, adv] using hT _
  obtain ⟨k, ks, hk, hk1, hk2⟩ : ∃ k ks, op.text = k :: ks ∧ isSpace k = false ∧ k ≠ '(' := by
    cases op with
    | isIn => exact absurd rfl ho.1
    | notIn => exact absurd rfl ho.2
    | _ => exact ⟨_, _, rfl, by decide, by decide⟩
  unfold parseSpecifier readSpecifier
  rw [hrc k ks hk]
  rw [hk] at key ⊢
  have hws : PS.ws (PS.ofText (k :: ks ++ (' ' :: lowerChar c :: lower cs))) =
      ⟨[], k :: (ks ++ (' ' :: lowerChar c :: lower cs))⟩ := ws_none _ _ hk1
  have hl : lit ['('] ⟨[], k :: (ks ++ (' ' :: lowerChar c :: lower cs))⟩ = Option.none := by
    simp [lit, List.isPrefixOf, Ne.symm hk2]
  rw [List.cons_append] at key
  simp only [hws, hl, readClauses, key, bind, Except.bind, Except.map]

end Pkm.Markers
