import Verif.Toml.Model
import Verif.ParserLemmas
set_option linter.unusedVariables false
set_option linter.unusedSimpArgs false
/-
Reading back strings, keys and inline values.
-/
namespace Pkm
open Toml

namespace Spec

/-- A string that can be read back: no null characters, and no backslash at the end. -/
def ReadableStr (s : Text) : Prop := (∀ c ∈ s, c.toNat ≠ 0) ∧ s.getLast? ≠ some '\\'

end Spec
open Spec

namespace Toml

/-! ### Strings -/

theorem escChar_cases (c : Char) :
    (escChar c = [c] ∧ c ≠ '"' ∧ c ≠ '\\' ∧ c ≠ '\n' ∧ c ≠ '\r') ∨
    (∃ d, escChar c = ['\\', d] ∧ simpleEscape d = some c ∧ (d = '"' ∨ (d = '\\' ∧ c = '\\') ∨ (d ≠ '"' ∧ d ≠ '\\'))) := by
  unfold escChar
  split
  · rename_i h; subst h; right; exact ⟨'b', rfl, by decide, by decide⟩
  · split
    · rename_i h; subst h; right; exact ⟨'t', rfl, by decide, by decide⟩
    · split
      · rename_i h; subst h; right; exact ⟨'n', rfl, by decide, by decide⟩
      · split
        · rename_i h; subst h; right; exact ⟨'f', rfl, by decide, by decide⟩
        · split
          · rename_i h; subst h; right; exact ⟨'r', rfl, by decide, by decide⟩
          · split
            · rename_i h; subst h; right; exact ⟨'"', rfl, by decide, by decide⟩
            · split
              · rename_i h; subst h; right; exact ⟨'\\', rfl, by decide, by decide⟩
              · left; refine ⟨rfl, ?_, ?_, ?_, ?_⟩ <;> assumption

theorem scanBasic_escape (s : Text) : ∀ (b : Bool) (r : Text), (s = [] → b = false) → s.getLast? ≠ some '\\' →
    scanBasic b (escape s ++ '"' :: r) = some (escape s, r) := by
  induction s with
  | nil => intro b r hb _; rw [hb rfl]; rfl
  | cons c s ih =>
    intro b r _ hl
    have hl' : s.getLast? ≠ some '\\' := by
      cases s with
      | nil => simp
      | cons d s => rw [List.getLast?_cons_cons] at hl; exact hl
    have hc : s = [] → c ≠ '\\' := by
      intro h; subst h; simpa using hl
    have he : escape (c :: s) = escChar c ++ escape s := rfl
    rw [he]
    rcases escChar_cases c with ⟨h1, h2, h3, -, -⟩ | ⟨d, h1, -, h3⟩
    · rw [h1]
      show scanBasic b (c :: (escape s ++ '"' :: r)) = _
      unfold scanBasic
      rw [if_neg h2, ih _ r (by intro; simp [h3]) hl']
      rfl
    · rw [h1]
      show scanBasic b ('\\' :: d :: (escape s ++ '"' :: r)) = _
      unfold scanBasic
      rw [if_neg (by decide)]
      unfold scanBasic
      rcases h3 with rfl | ⟨rfl, rfl⟩ | ⟨h3, h4⟩
      · rw [if_pos rfl, if_pos (by decide), ih false r (fun _ => rfl) hl']
        rfl
      · rw [if_neg (by decide), ih _ r (fun h => absurd rfl (hc h)) hl']
        rfl
      · rw [if_neg h3, ih _ r (by intro; simp [h4]) hl']
        rfl

theorem unescape_escape (s : Text) (h : ∀ c ∈ s, c.toNat ≠ 0) : unescape .plain (escape s) = some s := by
  induction s with
  | nil => rfl
  | cons c s ih =>
    have ih := ih (fun d hd => h d (List.mem_cons_of_mem _ hd))
    have he : escape (c :: s) = escChar c ++ escape s := rfl
    rw [he]
    rcases escChar_cases c with ⟨h1, h2, h3, h4, h5⟩ | ⟨d, h1, h2, -⟩
    · rw [h1]
      show unescape .plain (c :: escape s) = _
      unfold unescape
      rw [if_neg h3, if_neg (by simp [h2, h4, h5, h c List.mem_cons_self]), ih]
      rfl
    · rw [h1]
      show unescape .plain ('\\' :: d :: escape s) = _
      unfold unescape
      rw [if_pos rfl]
      unfold unescape
      rw [h2, ih]
      rfl

theorem escape_nil {s : Text} (h : escape s = []) : s = [] := by
  cases s with
  | nil => rfl
  | cons c s =>
    exfalso
    have he : escape (c :: s) = escChar c ++ escape s := rfl
    rw [he] at h
    rcases escChar_cases c with ⟨h1, -⟩ | ⟨d, h1, -⟩ <;> simp [h1] at h

theorem escape_no_quote (s u : Text) : escape s ≠ '"' :: u := by
  intro h
  cases s with
  | nil => simp [escape] at h
  | cons c s =>
    have he : escape (c :: s) = escChar c ++ escape s := rfl
    rw [he] at h
    rcases escChar_cases c with ⟨h1, h2, -⟩ | ⟨d, h1, -⟩
    · rw [h1] at h; simp at h; exact h2 h.1
    · rw [h1] at h; simp at h

theorem readStr_write (s r : Text) (h : ReadableStr s) (hr : ∀ u, r ≠ '"' :: u) : readStr (writeStr s ++ r) = some (s, r) := by
  show readStr ('"' :: (escape s ++ ['"'] ++ r)) = _
  rw [List.append_assoc]
  show readStr ('"' :: (escape s ++ '"' :: r)) = _
  unfold readStr
  have h3 : (['"', '"'] : Text).isPrefixOf (escape s ++ '"' :: r) = false := by
    cases he : escape s with
    | nil =>
      cases r with
      | nil => rfl
      | cons c r =>
        have : c ≠ '"' := fun e => hr r (by rw [e])
        simp [List.isPrefixOf, Ne.symm this]
    | cons c u =>
      have : c ≠ '"' := fun e => escape_no_quote s u (by rw [he, e])
      simp [List.isPrefixOf, Ne.symm this]
  simp only
  rw [if_neg (by simp [h3]), scanBasic_escape s false r (fun _ => rfl) h.2]
  simp only [unescape_escape s h.1]
  rfl

/-! ### Starts of texts -/

/-- The text starts with something other than white space and comments. -/
def Solid (t : Text) : Prop := ∃ c r, t = c :: r ∧ isSpace c = false ∧ c ≠ '#'

theorem nonData_solid {nl : Bool} {t : Text} (h : Solid t) : nonData nl false t = some t := by
  obtain ⟨c, r, rfl, h1, h2⟩ := h
  unfold nonData
  simp [h1, h2]

theorem skipBlanks_solid {t : Text} (h : Solid t) : skipBlanks t = t := by
  obtain ⟨c, r, rfl, h1, -⟩ := h
  simp [skipBlanks, h1]

theorem Solid.append {t u : Text} (h : Solid t) : Solid (t ++ u) := by
  obtain ⟨c, r, rfl, h1, h2⟩ := h
  exact ⟨c, r ++ u, rfl, h1, h2⟩

theorem Solid.ne {t : Text} (h : Solid t) : t ≠ [] := by
  obtain ⟨c, r, rfl, -⟩ := h
  simp

theorem digit_solid {c : Char} (h : isDigit c = true) : isSpace c = false ∧ c ≠ '#' := by
  unfold isDigit at h
  simp only [Bool.and_eq_true, decide_eq_true_eq] at h
  constructor
  · unfold isSpace
    simp only [Bool.or_eq_false_iff, Bool.and_eq_false_iff, decide_eq_false_iff_not, beq_eq_false_iff_ne]
    omega
  · intro e; subst e; simp at h

theorem keyChar_solid {c : Char} (h : isKeyChar c = true) : isSpace c = false ∧ c ≠ '#' := by
  constructor
  · cases hs : isSpace c with
    | false => rfl
    | true =>
      exfalso
      unfold isSpace at hs
      unfold isKeyChar isAlnum isDigit isLower isUpper at h
      simp only [Bool.or_eq_true, Bool.and_eq_true, decide_eq_true_eq, beq_iff_eq] at h hs
      rcases h with (h | rfl) | rfl
      · omega
      · simp at hs
      · simp at hs
  · intro e; subst e; simp [isKeyChar, isAlnum, isDigit, isLower, isUpper] at h

theorem showNat_solid (n : Nat) : Solid (showNat n) := by
  obtain ⟨c, cs, h1, h2⟩ := showNat_cons n
  exact ⟨c, cs, h1, (digit_solid h2).1, (digit_solid h2).2⟩

theorem writeInline_solid (v : TV) : Solid (writeInline v) := by
  cases v with
  | str s => unfold writeInline writeStr; exact ⟨_, _, rfl, by decide, by decide⟩
  | int n =>
    unfold writeInline showInt
    split
    · exact showNat_solid _
    · exact ⟨_, _, rfl, by decide, by decide⟩
  | bool b => cases b <;> unfold writeInline <;> exact ⟨_, _, rfl, by decide, by decide⟩
  | list l => unfold writeInline; exact ⟨_, _, rfl, by decide, by decide⟩
  | table t => unfold writeInline; exact ⟨_, _, rfl, by decide, by decide⟩

theorem writeKeyPart_solid (k : Text) : Solid (writeKeyPart k) := by
  unfold writeKeyPart
  split
  · rename_i h
    unfold isBare at h
    simp only [Bool.and_eq_true, Bool.not_eq_true'] at h
    cases k with
    | nil => simp at h
    | cons c k =>
      have := List.all_eq_true.1 h.2 c List.mem_cons_self
      exact ⟨c, k, rfl, (keyChar_solid this).1, (keyChar_solid this).2⟩
  · exact ⟨_, _, rfl, by decide, by decide⟩

/-! ### Keys -/

theorem readPart_write (k r : Text) (hk : ReadableStr k) (hr : ∀ c u, r = c :: u → isKeyChar c = false ∧ c ≠ '"') :
    readPart (writeKeyPart k ++ r) = some (k, r) := by
  unfold writeKeyPart
  split
  · rename_i h
    unfold isBare at h
    simp only [Bool.and_eq_true, Bool.not_eq_true'] at h
    obtain ⟨h1, h2⟩ := h
    cases k with
    | nil => simp at h1
    | cons c k =>
      have hc := List.all_eq_true.1 h2 c List.mem_cons_self
      have e1 : c ≠ '"' := by intro e; subst e; simp [isKeyChar, isAlnum, isDigit, isLower, isUpper] at hc
      have e2 : c ≠ '\'' := by intro e; subst e; simp [isKeyChar, isAlnum, isDigit, isLower, isUpper] at hc
      unfold readPart
      simp only [List.cons_append]
      rw [if_neg (by simp [e1, e2]), if_pos hc]
      have ha : ∀ d ∈ c :: k, isKeyChar d = true := List.all_eq_true.1 h2
      obtain ⟨t1, t2⟩ := takeWhile_append_stop isKeyChar (c :: k) r ha (by
        cases r with
        | nil => trivial
        | cons d u => exact (hr d u rfl).1)
      rw [← List.cons_append, t1, t2]
  · have : readStr (writeStr k ++ r) = some (k, r) := readStr_write k r hk (by
      intro u e
      exact (hr _ _ e).2 rfl)
    unfold readPart
    simp only [writeStr, List.cons_append] at this ⊢
    rw [if_pos (by decide)]
    exact this

theorem dots_cons (k k' : Text) (ks : List Text) : dots (k :: k' :: ks) = k ++ '.' :: dots (k' :: ks) := by
  simp [dots]

theorem readParts_write (ks : List Text) : ∀ (f : Nat) (r : Text), ks ≠ [] → (∀ k ∈ ks, ReadableStr k) → ks.length ≤ f →
    (∀ c u, r = c :: u → isKeyChar c = false ∧ c ≠ '"' ∧ c ≠ '.') → (∀ u, skipBlanks r ≠ '.' :: u) →
    readParts f (dots (ks.map writeKeyPart) ++ r) = some (ks, r) := by
  induction ks with
  | nil => intro f r h; exact absurd rfl h
  | cons k ks ih =>
    intro f r _ hks hf hr hr'
    cases f with
    | zero => simp at hf
    | succ f =>
      have hs : Solid (dots ((k :: ks).map writeKeyPart) ++ r) := by
        cases ks with
        | nil => exact (writeKeyPart_solid k).append
        | cons k' ks => simp only [List.map_cons, dots_cons]; exact ((writeKeyPart_solid k).append).append
      unfold readParts
      rw [if_neg (by simpa using hs.ne), skipBlanks_solid hs]
      cases ks with
      | nil =>
        simp only [List.map_cons, List.map_nil, dots]
        rw [readPart_write k r (hks k (by simp)) (fun c u e => ⟨(hr c u e).1, (hr c u e).2.1⟩)]
        simp only
      | cons k' ks =>
        simp only [List.map_cons, dots_cons, List.append_assoc, List.cons_append]
        rw [readPart_write k _ (hks k (by simp)) (by
          intro c u e
          simp only [List.cons.injEq] at e
          obtain ⟨rfl, -⟩ := e
          exact ⟨by decide, by decide⟩)]
        simp only
        have : skipBlanks ('.' :: (dots (writeKeyPart k' :: List.map writeKeyPart ks) ++ r)) =
            '.' :: (dots (writeKeyPart k' :: List.map writeKeyPart ks) ++ r) := skipBlanks_solid ⟨_, _, rfl, by decide, by decide⟩
        rw [this]
        simp only
        have := ih f r (by simp) (fun x hx => hks x (List.mem_cons_of_mem _ hx)) (by simp at hf ⊢; omega) hr hr'
        simp only [List.map_cons] at this
        rw [this]
        rfl

theorem openKey_part (k r : Text) : openKey (writeKeyPart k ++ r) = (.assignment, writeKeyPart k ++ r) := by
  have h : ∀ u, writeKeyPart k ++ r ≠ '[' :: u := by
    intro u e
    unfold writeKeyPart at e
    split at e
    · rename_i h
      unfold isBare at h
      simp only [Bool.and_eq_true, Bool.not_eq_true'] at h
      cases k with
      | nil => simp at h
      | cons c k =>
        have hc := List.all_eq_true.1 h.2 c List.mem_cons_self
        simp only [List.cons_append, List.cons.injEq] at e
        obtain ⟨rfl, -⟩ := e
        exact absurd hc (by decide)
    · simp [writeStr] at e
  unfold openKey
  split
  · rename_i u e; exact absurd e (h u)
  · rfl

/-- The key of an assignment, with the space after it. -/
theorem readKey_part (k r : Text) (hk : ReadableStr k) :
    readKey (writeKeyPart k ++ [' ', '='] ++ r) = some ([k], .assignment, '=' :: r) := by
  have hs : Solid (writeKeyPart k ++ [' ', '='] ++ r) := ((writeKeyPart_solid k).append).append
  unfold readKey
  rw [nonData_solid hs]
  simp only [List.append_assoc, openKey_part]
  have := readParts_write [k] ((writeKeyPart k ++ ([' ', '='] ++ r)).length + 1) ([' ', '='] ++ r) (by simp) (by simpa using hk)
    (by simp) (by
      intro c u e
      simp only [List.cons_append, List.cons.injEq] at e
      obtain ⟨rfl, -⟩ := e
      exact ⟨by decide, by decide, by decide⟩) (by
      intro u
      simp [skipBlanks, isSpace])
  simp only [List.map_cons, List.map_nil, dots] at this
  rw [this]
  simp [closeKey, nonData, isSpace]

theorem mapKeyPart_length (ks : List Text) : ks.length ≤ (dots (ks.map writeKeyPart)).length := by
  induction ks with
  | nil => simp
  | cons k ks ih =>
    have : 0 < (writeKeyPart k).length := by
      obtain ⟨c, r, h, -⟩ := writeKeyPart_solid k
      rw [h]; simp
    cases ks with
    | nil => exact this
    | cons k' ks =>
      simp only [List.map_cons, dots_cons, List.length_append, List.length_cons] at ih ⊢
      omega

/-- The key of a table or of an item of a list of tables. -/
theorem readKey_header (item : Bool) (ks : List Text) (r : Text) (hne : ks ≠ []) (hk : ∀ k ∈ ks, ReadableStr k) :
    readKey (writeHeader item ks ++ r) = some (ks, if item then .item else .table, '\n' :: r) := by
  have hs2 : Solid (dots (ks.map writeKeyPart)) := by
    cases ks with
    | nil => exact absurd rfl hne
    | cons k ks =>
      cases ks with
      | nil => exact writeKeyPart_solid k
      | cons k' ks => simp only [List.map_cons, dots_cons]; exact (writeKeyPart_solid k).append
  have hopen : ∀ u, dots (ks.map writeKeyPart) ++ u ≠ [] ∧ ∀ w, dots (ks.map writeKeyPart) ++ u ≠ '[' :: w := by
    intro u
    refine ⟨by simp [hs2.ne], ?_⟩
    intro w e
    have h : ∀ k u, openKey (writeKeyPart k ++ u) = (.assignment, writeKeyPart k ++ u) := openKey_part
    cases ks with
    | nil => exact absurd rfl hne
    | cons k ks =>
      have : ∃ x, dots ((k :: ks).map writeKeyPart) ++ u = writeKeyPart k ++ x := by
        cases ks with
        | nil => exact ⟨u, rfl⟩
        | cons k' ks => simp only [List.map_cons, dots_cons, List.append_assoc]; exact ⟨_, rfl⟩
      obtain ⟨x, hx⟩ := this
      have := h k x
      rw [← hx, e] at this
      unfold openKey at this
      split at this
      · rename_i w' e'
        split at this <;> simp at this
      · rename_i hh; exact hh _ rfl
  have hparts : ∀ f rest, (∀ c u, rest = c :: u → c = ']') → rest ≠ [] → ks.length ≤ f →
      readParts f (dots (ks.map writeKeyPart) ++ rest) = some (ks, rest) := by
    intro f rest h1 h2 hf
    refine readParts_write ks f rest hne hk hf ?_ ?_
    · intro c u e
      rw [h1 c u e]
      exact ⟨by decide, by decide, by decide⟩
    · intro u
      cases rest with
      | nil => exact absurd rfl h2
      | cons c rest =>
        rw [h1 c rest rfl]
        simp [skipBlanks, isSpace]
  have hemp : ks.isEmpty = false := by cases ks <;> simp_all
  have hlen := mapKeyPart_length ks
  cases item with
  | true =>
    have hw : writeHeader true ks ++ r = '[' :: '[' :: (dots (ks.map writeKeyPart) ++ (']' :: ']' :: '\n' :: r)) := by
      simp [writeHeader, hemp]
    rw [hw]
    unfold readKey
    rw [nonData_solid ⟨_, _, rfl, by decide, by decide⟩]
    simp only
    have ho : openKey ('[' :: '[' :: (dots (ks.map writeKeyPart) ++ (']' :: ']' :: '\n' :: r))) =
        (.item, dots (ks.map writeKeyPart) ++ (']' :: ']' :: '\n' :: r)) := by
      unfold openKey
      simp [skipBlanks, isSpace]
    rw [ho]
    simp only
    rw [hparts _ _ (by intro c u e; simp at e; exact e.1.symm) (by simp) (by simp; omega)]
    simp [closeKey, nonData, isSpace]
  | false =>
    have hw : writeHeader false ks ++ r = '[' :: (dots (ks.map writeKeyPart) ++ (']' :: '\n' :: r)) := by
      simp [writeHeader, hemp]
    rw [hw]
    unfold readKey
    rw [nonData_solid ⟨_, _, rfl, by decide, by decide⟩]
    simp only
    have ho : openKey ('[' :: (dots (ks.map writeKeyPart) ++ (']' :: '\n' :: r))) =
        (.table, dots (ks.map writeKeyPart) ++ (']' :: '\n' :: r)) := by
      unfold openKey
      simp only
      rw [skipBlanks_solid hs2.append]
      split
      · rename_i w e; exact absurd e ((hopen _).2 w)
      · rfl
    rw [ho]
    simp only
    rw [hparts _ _ (by intro c u e; simp at e; exact e.1.symm) (by simp) (by simp; omega)]
    simp [closeKey, nonData, isSpace]

end Toml
end Pkm
