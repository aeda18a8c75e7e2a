import Verif.Markers.Spec
import Verif.ParserLemmas
set_option linter.unusedVariables false
set_option linter.unusedSimpArgs false
/-
The marker parser on the texts of words, operators, comparisons and chains.
-/
namespace Pkm.Markers

/-! ### primitives -/

theorem dropWhile_append_stop (f : Char → Bool) (a R : Text) (h : ∀ c, c ∈ a → f c = true)
    (hR : StartsNot f R) : (a ++ R).dropWhile f = R := by
  induction a with
  | nil =>
    cases R with
    | nil => rfl
    | cons c cs => simp at hR; simp [List.dropWhile, hR]
  | cons c cs ih => simp [List.dropWhile, h c (by simp), ih (fun d hd => h d (by simp [hd]))]

theorem takeWhile_append_stop' (f : Char → Bool) (a R : Text) (h : ∀ c, c ∈ a → f c = true)
    (hR : StartsNot f R) : (a ++ R).takeWhile f = a := by
  induction a with
  | nil =>
    cases R with
    | nil => rfl
    | cons c cs => simp at hR; simp [List.takeWhile, hR]
  | cons c cs ih => simp [List.takeWhile, h c (by simp), ih (fun d hd => h d (by simp [hd]))]

theorem skipWs_append (b R : Text) (h : Blank b) (hR : StartsNot isSpace R) : skipWs (b ++ R) = R :=
  dropWhile_append_stop isSpace b R h hR

theorem takeWhile_dropWhile (f : Char → Bool) (t : Text) : t.takeWhile f ++ t.dropWhile f = t :=
  List.takeWhile_append_dropWhile

theorem startsNot_dropWhile (f : Char → Bool) (t : Text) : StartsNot f (t.dropWhile f) := by
  induction t with
  | nil => simp
  | cons c cs ih =>
    simp only [List.dropWhile]
    cases h : f c with
    | true => exact ih
    | false => simpa using h

theorem mem_takeWhile (f : Char → Bool) (t : Text) : ∀ c, c ∈ t.takeWhile f → f c = true := by
  induction t with
  | nil => simp
  | cons d ds ih =>
    intro c hc
    simp only [List.takeWhile] at hc
    cases h : f d with
    | true =>
      rw [h] at hc; simp at hc
      rcases hc with rfl | hc
      · exact h
      · exact ih c hc
    | false => rw [h] at hc; simp at hc

/-- A text is blanks and what `match_ws` leaves. -/
theorem skipWs_split (t : Text) : ∃ b, Blank b ∧ t = b ++ skipWs t ∧ StartsNot isSpace (skipWs t) :=
  ⟨t.takeWhile isSpace, mem_takeWhile isSpace t, (takeWhile_dropWhile isSpace t).symm,
    startsNot_dropWhile isSpace t⟩

theorem matchLit_append (s R : Text) : matchLit s (s ++ R) = some R := by
  have : s.isPrefixOf (s ++ R) = true := by
    induction s with
    | nil => simp
    | cons c cs ih => simp [ih]
  simp [matchLit, this]

theorem matchLit_some (s t r : Text) (h : matchLit s t = some r) : t = s ++ r := by
  simp only [matchLit] at h
  split at h
  · rename_i hp
    simp at h; subst h
    have := List.isPrefixOf_iff_prefix.1 hp
    obtain ⟨u, hu⟩ := this
    rw [← hu]; simp
  · simp at h

/-! ### words -/

theorem alpha_ident (c : Char) (h : isAlpha c = true) : isIdent c = true := by
  simp [isAlpha] at h
  rcases h with h | h <;> simp [isIdent, isAlnum, h]

theorem alpha_not_quote (c : Char) (h : isAlpha c = true) : (c == '"' || c == '\'') = false := by
  cases hc : (c == '"' || c == '\'') with
  | false => rfl
  | true =>
    simp at hc
    rcases hc with rfl | rfl <;> exact absurd h (by decide)

theorem alpha_not_space (c : Char) (h : isAlpha c = true) : isSpace c = false := by
  simp [isAlpha, isLower, isUpper] at h
  simp [isSpace]; omega

theorem ident_not_space (c : Char) (h : isIdent c = true) : isSpace c = false := by
  simp only [isIdent, isAlnum, Bool.or_eq_true, beq_iff_eq] at h
  rcases h with ((h | rfl) | rfl) | rfl
  · simp [isDigit, isLower, isUpper] at h
    simp [isSpace]; omega
  · decide
  · decide
  · decide

theorem otherQuote_quoteChar (d : Bool) : otherQuote (quoteChar d) = quoteChar (!d) := by
  cases d <;> decide

theorem inString_iff (d : Bool) (c : Char) :
    inString (quoteChar d) c = true ↔ c = quoteChar (!d) ∨ c ∈ markerStrChars := by
  simp [inString, otherQuote_quoteChar]

theorem inString_quote (d : Bool) : inString (quoteChar d) (quoteChar d) = false := by
  cases d <;> decide

theorem readVar_text (w : Word) (hw : w.Ok) (R : Text) (hR : w.isName = true → StartsNot isIdent R) :
    readVar (w.text ++ R) = .ok (w.operand, R) := by
  cases w with
  | str d s =>
    have h1 : ∀ c, c ∈ s → inString (quoteChar d) c = true := fun c hc => (inString_iff d c).2 (hw c hc)
    have hs : StartsNot (inString (quoteChar d)) (quoteChar d :: R) := by simp [inString_quote]
    have e : (s ++ [quoteChar d]) ++ R = s ++ (quoteChar d :: R) := by simp
    have h2 := dropWhile_append_stop (inString (quoteChar d)) s (quoteChar d :: R) h1 hs
    have h3 := takeWhile_append_stop' (inString (quoteChar d)) s (quoteChar d :: R) h1 hs
    have hq : (quoteChar d == '"' || quoteChar d == '\'') = true := by cases d <;> decide
    simp only [Word.text, List.cons_append, e, readVar, hq, if_true, readStr, h2, h3, beq_self_eq_true,
      Word.operand]
  | name n =>
    obtain ⟨c, cs, rfl, hc, hcs⟩ := hw
    have h1 : ∀ x, x ∈ c :: cs → isIdent x = true := by
      intro x hx
      simp at hx
      rcases hx with rfl | hx
      · exact alpha_ident _ hc
      · exact hcs x hx
    have h2 := dropWhile_append_stop isIdent (c :: cs) R h1 (hR rfl)
    have h3 := takeWhile_append_stop' isIdent (c :: cs) R h1 (hR rfl)
    rw [List.cons_append] at h2 h3
    simp only [Word.text, List.cons_append, readVar, alpha_not_quote c hc, readIdent, hc, if_true, h2, h3]
    rfl

theorem readVar_ok (t r : Text) (o : Operand) (h : readVar t = .ok (o, r)) :
    ∃ w : Word, w.Ok ∧ t = w.text ++ r ∧ w.operand = o ∧ (w.isName = true → StartsNot isIdent r) := by
  cases t with
  | nil => simp [readVar] at h
  | cons c cs =>
    simp only [readVar] at h
    split at h
    · rename_i hq
      obtain ⟨d, rfl⟩ : ∃ d, c = quoteChar d := by
        simp at hq
        rcases hq with rfl | rfl
        · exact ⟨true, rfl⟩
        · exact ⟨false, rfl⟩
      simp only [readStr] at h
      cases hd : cs.dropWhile (inString (quoteChar d)) with
      | nil => rw [hd] at h; simp at h
      | cons x xs =>
        rw [hd] at h
        simp only at h
        by_cases hx : x == quoteChar d
        · rw [if_pos hx] at h
          simp at h hx
          obtain ⟨rfl, rfl⟩ := h
          refine ⟨.str d (cs.takeWhile (inString (quoteChar d))), ?_, ?_, rfl, by simp [Word.isName]⟩
          · intro y hy
            exact (inString_iff d y).1 (mem_takeWhile _ _ y hy)
          · have := takeWhile_dropWhile (inString (quoteChar d)) cs
            rw [hd, hx] at this
            simp only [Word.text, List.cons_append, List.append_assoc, List.singleton_append]
            simp [this]
        · rw [if_neg hx] at h; simp at h
    · rename_i hq
      simp only [readIdent] at h
      by_cases ha : isAlpha c
      · rw [if_pos ha] at h
        simp at h
        obtain ⟨rfl, rfl⟩ := h
        refine ⟨.name ((c :: cs).takeWhile isIdent), ?_, ?_, ?_, ?_⟩
        · refine ⟨c, cs.takeWhile isIdent, by simp [List.takeWhile, alpha_ident c ha], ha, ?_⟩
          exact mem_takeWhile isIdent cs
        · exact (takeWhile_dropWhile isIdent (c :: cs)).symm
        · rfl
        · intro _; exact startsNot_dropWhile isIdent (c :: cs)
      · rw [if_neg ha] at h; simp at h

/-! ### operators -/

theorem readOp_text (op : OpWord) (ho : op.Ok) (R : Text) (hR : StartsNot (· == '=') R) :
    readOp (op.text ++ R) = .ok (op.op, R) := by
  have hR' : ∀ u, R ≠ '=' :: u := by
    intro u e; subst e; simp at hR
  cases op with
  | notIn g =>
    have hg : (g ++ 'i' :: 'n' :: R).dropWhile (fun c => isSpace c && c != '\n') = 'i' :: 'n' :: R :=
      dropWhile_append_stop _ g _ (by intro c hc; have := ho c hc; simp [this]) (by simp; decide)
    simp [readOp, OpWord.text, versionOps, matchOp, matchLit, List.isPrefixOf, matchNotIn, skipBlanks, hg,
      OpWord.op]
  | lt =>
    cases R with
    | nil => rfl
    | cons c cs =>
      have : ¬ '=' = c := fun e => hR' cs (by rw [e])
      simp [readOp, OpWord.text, versionOps, matchOp, matchLit, List.isPrefixOf, OpWord.op, this]
  | gt =>
    cases R with
    | nil => rfl
    | cons c cs =>
      have : ¬ '=' = c := fun e => hR' cs (by rw [e])
      simp [readOp, OpWord.text, versionOps, matchOp, matchLit, List.isPrefixOf, OpWord.op, this]
  | _ => simp [readOp, OpWord.text, versionOps, matchOp, matchLit, List.isPrefixOf, OpWord.op]

theorem skipBlanks_split (t : Text) : ∃ g, (∀ c, c ∈ g → isSpace c = true ∧ c ≠ '\n') ∧
    t = g ++ skipBlanks t := by
  refine ⟨t.takeWhile (fun c => isSpace c && c != '\n'), ?_, (takeWhile_dropWhile _ t).symm⟩
  intro c hc
  have := mem_takeWhile _ _ c hc
  simpa using this

theorem readOp_ok (t r : Text) (o : Op) (h : readOp t = .ok (o, r)) :
    ∃ op : OpWord, op.Ok ∧ t = op.text ++ r ∧ op.op = o := by
  simp only [readOp] at h
  cases hv : matchOp versionOps t with
  | some x =>
    obtain ⟨o', r'⟩ := x
    rw [hv] at h
    simp at h
    obtain ⟨rfl, rfl⟩ := h
    simp only [versionOps, matchOp] at hv
    repeat' split at hv
    all_goals simp at hv
    all_goals obtain ⟨rfl, rfl⟩ := hv
    · exact ⟨.le, trivial, matchLit_some _ _ _ (by assumption), rfl⟩
    · exact ⟨.lt, trivial, matchLit_some _ _ _ (by assumption), rfl⟩
    · exact ⟨.ge, trivial, matchLit_some _ _ _ (by assumption), rfl⟩
    · exact ⟨.gt, trivial, matchLit_some _ _ _ (by assumption), rfl⟩
    · exact ⟨.ne, trivial, matchLit_some _ _ _ (by assumption), rfl⟩
    · exact ⟨.eq, trivial, matchLit_some _ _ _ (by assumption), rfl⟩
    · rename_i h2
      have := matchLit_some _ _ _ h2
      subst this
      simp_all [matchLit, List.isPrefixOf]
    · exact ⟨.compat, trivial, matchLit_some _ _ _ (by assumption), rfl⟩
  | none =>
    rw [hv] at h
    simp only at h
    cases hi : matchLit ['i', 'n'] t with
    | some r' =>
      rw [hi] at h
      simp at h
      obtain ⟨rfl, rfl⟩ := h
      exact ⟨.isIn, trivial, matchLit_some _ _ _ hi, rfl⟩
    | none =>
      rw [hi] at h
      simp only [matchNotIn] at h
      cases hn : matchLit ['n', 'o', 't'] t with
      | none => rw [hn] at h; simp at h
      | some u =>
        rw [hn] at h
        simp only at h
        cases hin : matchLit ['i', 'n'] (skipBlanks u) with
        | none => rw [hin] at h; simp at h
        | some v =>
          rw [hin] at h
          simp at h
          obtain ⟨rfl, rfl⟩ := h
          obtain ⟨g, hg, hu⟩ := skipBlanks_split u
          refine ⟨.notIn g, hg, ?_, rfl⟩
          rw [matchLit_some _ _ _ hn, hu, matchLit_some _ _ _ hin]
          simp [OpWord.text]

/-! ### comparisons -/

theorem word_first (w : Word) (hw : w.Ok) (R : Text) :
    ∃ c cs, w.text ++ R = c :: cs ∧ isSpace c = false ∧ c ≠ '=' ∧ c ≠ '(' := by
  cases w with
  | str d s => exact ⟨quoteChar d, _, rfl, by cases d <;> decide, by cases d <;> decide, by cases d <;> decide⟩
  | name n =>
    obtain ⟨c, cs, rfl, hc, _⟩ := hw
    refine ⟨c, cs ++ R, rfl, alpha_not_space c hc, ?_, ?_⟩ <;> rintro rfl <;> exact absurd hc (by decide)

theorem op_first (op : OpWord) (R : Text) :
    ∃ c cs, op.text ++ R = c :: cs ∧ isSpace c = false ∧ (op.isWordy = false → isIdent c = false) ∧
      (op.isWordy = true → isIdent c = true) := by
  cases op <;> exact ⟨_, _, rfl, by decide, by simp [OpWord.isWordy] <;> decide, by simp [OpWord.isWordy] <;> decide⟩

theorem blank_startsNot_ident (b R : Text) (hb : Blank b) (h : b = [] → StartsNot isIdent R) :
    StartsNot isIdent (b ++ R) := by
  cases b with
  | nil => exact h rfl
  | cons c cs =>
    simp
    cases hi : isIdent c with
    | false => rfl
    | true => have := ident_not_space c hi; rw [hb c (by simp)] at this; simp at this

theorem readCmp_text (l r : Word) (op : OpWord) (b1 b2 R : Text) (hl : l.Ok) (hr : r.Ok) (ho : op.Ok)
    (h1 : Blank b1) (h2 : Blank b2) (hw : l.isName = true → op.isWordy = true → b1 ≠ [])
    (hR : r.isName = true → StartsNot isIdent R) :
    readCmp (l.text ++ (b1 ++ (op.text ++ (b2 ++ (r.text ++ R))))) =
      .ok (.cmp l.operand op.op r.operand, R) := by
  obtain ⟨c, cs, e1, e2, e3, e4⟩ := op_first op (b2 ++ (r.text ++ R))
  obtain ⟨d, ds, f1, f2, f3, f4⟩ := word_first r hr R
  have g1 : readVar (l.text ++ (b1 ++ (op.text ++ (b2 ++ (r.text ++ R))))) =
      .ok (l.operand, b1 ++ (op.text ++ (b2 ++ (r.text ++ R)))) := by
    apply readVar_text l hl
    intro hn
    apply blank_startsNot_ident b1 _ h1
    intro hb
    cases ho' : op.isWordy with
    | true => exact absurd hb (hw hn ho')
    | false => rw [e1]; simp [e3 ho']
  have g2 : skipWs (b1 ++ (op.text ++ (b2 ++ (r.text ++ R)))) = op.text ++ (b2 ++ (r.text ++ R)) := by
    apply skipWs_append b1 _ h1
    rw [e1]; simp [e2]
  have g3 : readOp (op.text ++ (b2 ++ (r.text ++ R))) = .ok (op.op, b2 ++ (r.text ++ R)) := by
    apply readOp_text op ho
    cases b2 with
    | nil => rw [List.nil_append, f1]; simp [f3]
    | cons x xs =>
      have := h2 x (by simp)
      simp
      rintro rfl; exact absurd this (by decide)
  have g4 : skipWs (b2 ++ (r.text ++ R)) = r.text ++ R := by
    apply skipWs_append b2 _ h2
    rw [f1]; simp [f2]
  have g5 := readVar_text r hr R hR
  simp only [readCmp, g1, g2, g3, g4, g5]

theorem readCmp_ok (t R : Text) (m : Marker) (h : readCmp t = .ok (m, R)) :
    ∃ (l r : Word) (op : OpWord) (b1 b2 : Text), l.Ok ∧ r.Ok ∧ op.Ok ∧ Blank b1 ∧ Blank b2 ∧
      (l.isName = true → op.isWordy = true → b1 ≠ []) ∧ (r.isName = true → StartsNot isIdent R) ∧
      t = l.text ++ (b1 ++ (op.text ++ (b2 ++ (r.text ++ R)))) ∧
      m = .cmp l.operand op.op r.operand := by
  simp only [readCmp] at h
  cases h1 : readVar t with
  | error e => rw [h1] at h; simp at h
  | ok x1 =>
    obtain ⟨ol, t1⟩ := x1
    rw [h1] at h; simp only at h
    cases h2 : readOp (skipWs t1) with
    | error e => rw [h2] at h; simp at h
    | ok x2 =>
      obtain ⟨oo, t2⟩ := x2
      rw [h2] at h; simp only at h
      cases h3 : readVar (skipWs t2) with
      | error e => rw [h3] at h; simp at h
      | ok x3 =>
        obtain ⟨or', t3⟩ := x3
        rw [h3] at h; simp at h
        obtain ⟨rfl, rfl⟩ := h
        obtain ⟨l, hl, e1, rfl, hln⟩ := readVar_ok t t1 ol h1
        obtain ⟨op, ho, e2, rfl⟩ := readOp_ok _ t2 oo h2
        obtain ⟨r, hr, e3, rfl, hrn⟩ := readVar_ok _ t3 or' h3
        obtain ⟨b1, hb1, s1, _⟩ := skipWs_split t1
        obtain ⟨b2, hb2, s2, _⟩ := skipWs_split t2
        refine ⟨l, r, op, b1, b2, hl, hr, ho, hb1, hb2, ?_, hrn, ?_, rfl⟩
        · intro hn hw hb
          have := hln hn
          rw [s1, hb, e2, List.nil_append] at this
          obtain ⟨c, cs, g1, _, _, g4⟩ := op_first op t2
          rw [g1] at this
          simp [g4 hw] at this
        · rw [e1, s1, e2, s2, e3]

end Pkm.Markers
