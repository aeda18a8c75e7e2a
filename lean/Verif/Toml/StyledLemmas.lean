import Verif.Toml.StyledSpec
set_option linter.unusedVariables false
set_option linter.unusedSimpArgs false
/-
Lemmas for C116: reading with styles.
-/
namespace Pkm
namespace TomlStyle
open Toml
open Spec Spec.Styled

theorem blank_space {c : Char} (h : c = ' ' ∨ c = '\t') : isSpace c = true ∧ c ≠ '\n' := by
  rcases h with rfl | rfl <;> exact ⟨by decide, by decide⟩

theorem nonData_blanks (nl : Bool) (b r : Text) (h : Blanks b) : nonData nl false (b ++ r) = nonData nl false r := by
  induction b with
  | nil => rfl
  | cons c b ih =>
    have hc := blank_space (h c List.mem_cons_self)
    rw [List.cons_append, nonData]
    simp only [hc.1, Bool.true_and]
    rw [if_pos (by simp [hc.2])]
    exact ih (fun x hx => h x (List.mem_cons_of_mem _ hx))

theorem nonData_inComment (nl : Bool) (c r : Text) (h : '\n' ∉ c) :
    nonData nl true (c ++ '\n' :: r) = if nl then nonData nl false r else some ('\n' :: r) := by
  induction c with
  | nil => rw [List.nil_append, nonData]; simp
  | cons x c ih =>
    have hx : x ≠ '\n' := fun e => h (by rw [e]; exact List.mem_cons_self)
    rw [List.cons_append, nonData, if_neg hx]
    exact ih (fun hm => h (List.mem_cons_of_mem _ hm))

theorem nonData_newline (nl : Bool) (r : Text) :
    nonData nl false ('\n' :: r) = if nl then nonData nl false r else some ('\n' :: r) := by
  rw [nonData]
  cases nl <;> simp [isSpace]

theorem nonData_tail (nl : Bool) (b : Text) (c : Option Text) (r : Text) (hb : Blanks b) (hc : CommentOk c) :
    nonData nl false (b ++ (comment c ++ '\n' :: r)) = if nl then nonData nl false r else some ('\n' :: r) := by
  rw [nonData_blanks nl b _ hb]
  cases c with
  | none => exact nonData_newline nl r
  | some t =>
    simp only [comment, List.cons_append]
    rw [nonData]
    rw [if_neg (by simp [isSpace]), if_pos rfl]
    exact nonData_inComment nl t r (hc t rfl)

theorem nonData_gap (g : Gap) (r : Text) (h : g.Ok) : nonData true false (g.text ++ r) = nonData true false r := by
  obtain ⟨ls, ind⟩ := g
  obtain ⟨h1, h2⟩ := h
  simp only [Gap.text] at *
  induction ls with
  | nil => exact nonData_blanks true ind r h2
  | cons l ls ih =>
    have hl := h1 l List.mem_cons_self
    have e : (List.flatMap (fun l => l.1 ++ comment l.2 ++ ['\n']) (l :: ls) ++ ind ++ r) =
        l.1 ++ (comment l.2 ++ '\n' :: (List.flatMap (fun l => l.1 ++ comment l.2 ++ ['\n']) ls ++ ind ++ r)) := by
      simp [List.flatMap_cons, List.append_assoc]
    rw [e, nonData_tail true l.1 l.2 _ hl.1 hl.2]
    exact ih (fun x hx => h1 x (List.mem_cons_of_mem _ hx))

theorem consumed_append (a r : Text) : consumed (a ++ r) r = a := by
  unfold consumed
  have : (a ++ r).length - r.length = a.length := by simp
  rw [this]; simp

theorem skipBlanks_blanks (b r : Text) (h : Blanks b) : skipBlanks (b ++ r) = skipBlanks r := by
  induction b with
  | nil => rfl
  | cons c b ih =>
    have hc := blank_space (h c List.mem_cons_self)
    unfold skipBlanks
    rw [List.cons_append, List.dropWhile_cons, if_pos (by simp [hc.1, hc.2])]
    exact ih (fun x hx => h x (List.mem_cons_of_mem _ hx))

theorem blanks_head {b : Text} (h : Blanks b) (r : Text) (d : Char) (hd : isKeyChar d = false ∧ d ≠ '"' ∧ d ≠ '.') :
    ∀ c u, b ++ d :: r = c :: u → isKeyChar c = false ∧ c ≠ '"' ∧ c ≠ '.' := by
  intro c u e
  cases b with
  | nil =>
    simp only [List.nil_append, List.cons.injEq] at e
    rw [← e.1]; exact hd
  | cons x b =>
    simp only [List.cons_append, List.cons.injEq] at e
    rw [← e.1]
    rcases h x List.mem_cons_self with rfl | rfl <;> exact ⟨by decide, by decide, by decide⟩

/-- The key of a line. -/
theorem readKeyS_line (g : Gap) (k b r : Text) (hg : g.Ok) (hk : ReadableStr k) (hb : Blanks b) :
    readKeyS (g.text ++ (writeKeyPart k ++ (b ++ '=' :: r))) =
      some ⟨[k], .assignment, g.text, writeKeyPart k, b, '=' :: r⟩ := by
  have hs : Solid (writeKeyPart k ++ (b ++ '=' :: r)) := (writeKeyPart_solid k).append
  unfold readKeyS
  rw [nonData_gap g _ hg, nonData_solid hs]
  simp only [openKey_part]
  have h1 := readParts_write [k] ((writeKeyPart k ++ (b ++ '=' :: r)).length + 1) (b ++ '=' :: r) (by simp) (by simpa using hk)
    (by simp) (blanks_head hb r '=' ⟨by decide, by decide, by decide⟩) (by
      intro u
      rw [skipBlanks_blanks _ _ hb]
      simp [skipBlanks, isSpace])
  simp only [List.map_cons, List.map_nil, dots] at h1
  rw [h1]
  simp only [closeKey]
  rw [nonData_blanks false b _ hb, nonData_solid ⟨'=', r, rfl, by decide, by decide⟩]
  simp only [consumed_append]

theorem openKey_table (k r : Text) : openKey ('[' :: (writeKeyPart k ++ r)) = (.table, writeKeyPart k ++ r) := by
  have hs : Solid (writeKeyPart k ++ r) := (writeKeyPart_solid k).append
  unfold openKey
  simp only [skipBlanks_solid hs]
  have ho := openKey_part k r
  unfold openKey at ho
  split
  · rename_i u e
    rw [e] at ho
    simp only at ho
    split at ho <;> simp at ho
  · rfl

theorem dots_head (k : Text) (ks : List Text) : ∃ x, dots ((k :: ks).map writeKeyPart) = writeKeyPart k ++ x := by
  cases ks with
  | nil => exact ⟨[], by simp [dots]⟩
  | cons k2 ks => exact ⟨'.' :: dots ((k2 :: ks).map writeKeyPart), by simp [dots]⟩

theorem dots_length (ks : List Text) : ks.length ≤ (dots (ks.map writeKeyPart)).length := by
  induction ks with
  | nil => simp
  | cons k ks ih =>
    obtain ⟨c, u, h, -⟩ := writeKeyPart_solid k
    cases ks with
    | nil => simp [dots, h]
    | cons k2 ks => simp only [List.map_cons, dots, List.length_append, List.length_cons, h] at ih ⊢; omega

/-- The key of a table. -/
theorem readKeyS_header (p : List Text) (b : Text) (c : Option Text) (r : Text) (hp : p ≠ []) (hk : ∀ k ∈ p, ReadableStr k)
    (hb : Blanks b) (hc : CommentOk c) :
    readKeyS ('[' :: (dots (p.map writeKeyPart) ++ ']' :: (b ++ (comment c ++ '\n' :: r)))) =
      some ⟨p, .table, [], '[' :: (dots (p.map writeKeyPart) ++ [']']), b ++ comment c, '\n' :: r⟩ := by
  have hs : Solid ('[' :: (dots (p.map writeKeyPart) ++ ']' :: (b ++ (comment c ++ '\n' :: r)))) := ⟨_, _, rfl, by decide, by decide⟩
  have hopen : ∀ r, openKey ('[' :: (dots (p.map writeKeyPart) ++ r)) = (.table, dots (p.map writeKeyPart) ++ r) := by
    intro r
    cases p with
    | nil => exact absurd rfl hp
    | cons k ks =>
      obtain ⟨x, hx⟩ := dots_head k ks
      rw [hx, List.append_assoc]
      exact openKey_table k _
  unfold readKeyS
  rw [nonData_solid hs]
  simp only [hopen]
  have h1 := readParts_write p (('[' :: (dots (p.map writeKeyPart) ++ ']' :: (b ++ (comment c ++ '\n' :: r)))).length + 1)
    (']' :: (b ++ (comment c ++ '\n' :: r))) hp hk
    (by have := dots_length p; simp only [List.length_cons, List.length_append]; omega) (by
      intro x u e
      simp only [List.cons.injEq] at e
      rw [← e.1]; exact ⟨by decide, by decide, by decide⟩) (by
      intro u
      simp [skipBlanks, isSpace])
  rw [h1]
  simp only [closeKey]
  rw [nonData_tail false b c r hb hc]
  simp only [Bool.false_eq_true, if_false]
  have e1 : consumed ('[' :: (dots (p.map writeKeyPart) ++ ']' :: (b ++ (comment c ++ '\n' :: r)))) (b ++ (comment c ++ '\n' :: r)) =
      '[' :: (dots (p.map writeKeyPart) ++ [']']) := by
    have := consumed_append ('[' :: (dots (p.map writeKeyPart) ++ [']'])) (b ++ (comment c ++ '\n' :: r))
    simpa using this
  have e2 : consumed (b ++ (comment c ++ '\n' :: r)) ('\n' :: r) = b ++ comment c := by
    have := consumed_append (b ++ comment c) ('\n' :: r)
    simpa using this
  have e3 : ∀ x : Text, consumed x x = [] := by intro x; simpa using consumed_append [] x
  rw [e1, e2, e3]

/-! ### Values -/

/-- What may follow a value: blanks, a comment, the end of the line or, in a list, a comma or bracket. -/
def After (r : Text) : Prop := ∃ c u, r = c :: u ∧ (c = ' ' ∨ c = '\t' ∨ c = '#' ∨ c = '\n' ∨ c = ',' ∨ c = ']')

theorem after_tail (b : Text) (c : Option Text) (r : Text) (h : Blanks b) : After (b ++ (comment c ++ '\n' :: r)) := by
  cases b with
  | nil =>
    cases c with
    | none => exact ⟨_, _, rfl, Or.inr (Or.inr (Or.inr (Or.inl rfl)))⟩
    | some t => exact ⟨_, _, rfl, Or.inr (Or.inr (Or.inl rfl))⟩
  | cons x b =>
    refine ⟨x, _, rfl, ?_⟩
    rcases h x List.mem_cons_self with e | e
    · exact Or.inl e
    · exact Or.inr (Or.inl e)

theorem scanLiteral_append (s r : Text) (h : '\'' ∉ s) : scanLiteral (s ++ '\'' :: r) = some (s, r) := by
  induction s with
  | nil => simp [scanLiteral]
  | cons c s ih =>
    have hc : c ≠ '\'' := fun e => h (by rw [e]; exact List.mem_cons_self)
    rw [List.cons_append, scanLiteral, if_neg hc, ih (fun hm => h (List.mem_cons_of_mem _ hm))]
    rfl

theorem readNumber_after (n : Int) (r : Text) (h : After r) : readNumber (showInt n ++ r) = some (.int n, r) := by
  have h0 := readNumber_show n ('\n' :: []) (ends_char [] (by simp))
  obtain ⟨c, u, rfl, hc⟩ := h
  have hd : (isDigit c || c == '.' || c == 'e') = false := by rcases hc with rfl | rfl | rfl | rfl | rfl | rfl <;> decide
  have hm : (c = '-' || c = ':') = false := by rcases hc with rfl | rfl | rfl | rfl | rfl | rfl <;> decide
  have key : ∀ m : Nat,
      ((showNat m ++ c :: u).takeWhile (fun c => isDigit c || c == '.' || c == 'e') = showNat m) ∧
      ((showNat m ++ c :: u).dropWhile (fun c => isDigit c || c == '.' || c == 'e') = c :: u) := by
    intro m
    exact takeWhile_append_stop _ (showNat m) (c :: u) (fun d hd => by simp [showNat_digits m d hd]) hd
  cases n with
  | ofNat m =>
    obtain ⟨x, xs, hx, hxd⟩ := showNat_cons m
    have hh := digit_head hxd
    have hsg : signOf (showNat m ++ c :: u) = (false, showNat m ++ c :: u) := by
      rw [hx]; unfold signOf; simp only [List.cons_append]
      split
      · rename_i e; simp only [List.cons.injEq] at e; exact absurd e.1 hh.1
      · rename_i e; simp only [List.cons.injEq] at e; exact absurd e.1 hh.2
      · rfl
    unfold readNumber
    simp only [showInt, hsg, (key m).1, (key m).2]
    rw [if_neg (by rw [hm]; decide), evalNat_show]
    rfl
  | negSucc m =>
    unfold readNumber
    simp only [showInt, List.cons_append, signOf, (key (m + 1)).1, (key (m + 1)).2]
    rw [if_neg (by rw [hm]; decide), evalNat_show]
    rfl

theorem readBareS_scalar (f : Nat) (key : List SKey) (v : Scalar) (r : Text) (sh : Sheet) (hv : v.Ok) (hr : After r) :
    readBareS (f + 1) key (v.text ++ r) sh = some (v.value, r, sh, true) := by
  cases v with
  | quoted s =>
    have h := readStr_write s r hv (by
      intro u e; obtain ⟨c, w, e2, hc⟩ := hr
      rw [e] at e2; simp only [List.cons.injEq] at e2; rw [← e2.1] at hc; revert hc; decide)
    simp only [Scalar.text, Scalar.value]
    have e : writeStr s ++ r = '"' :: ((escape s ++ ['"']) ++ r) := rfl
    rw [e] at h ⊢
    rw [readBareS]
    simp only
    rw [if_neg (by decide), if_pos (by decide), h]
    rfl
  | literal s =>
    have h := scanLiteral_append s r hv
    simp only [Scalar.text, Scalar.value]
    have e : ('\'' :: s ++ ['\'']) ++ r = '\'' :: (s ++ '\'' :: r) := by simp
    rw [e, readBareS]
    simp only
    rw [if_neg (by decide), if_pos (by decide)]
    have hp : (['\'', '\''].isPrefixOf (s ++ '\'' :: r)) = false := by
      cases s with
      | nil =>
        obtain ⟨c, w, rfl, hc⟩ := hr
        rcases hc with rfl | rfl | rfl | rfl | rfl | rfl <;> rfl
      | cons x s =>
        have hx : x ≠ '\'' := fun e => hv (by rw [e]; exact List.mem_cons_self)
        simp [List.isPrefixOf, Ne.symm hx]
    unfold readStr
    simp only [hp, Bool.false_eq_true, if_false, h]
    rfl
  | bool b =>
    cases b <;> rfl
  | number n =>
    have h := readNumber_after n r hr
    simp only [Scalar.text, Scalar.value]
    have hh : ∃ c u, showInt n ++ r = c :: u ∧ (c = '+' || c = '-' || isDigit c) = true := by
      cases n with
      | ofNat m =>
        obtain ⟨x, xs, hx, hxd⟩ := showNat_cons m
        exact ⟨x, xs ++ r, by simp [showInt, hx], by simp [hxd]⟩
      | negSucc m => exact ⟨'-', _, rfl, by decide⟩
    obtain ⟨c, u, e, hc⟩ := hh
    rw [e] at h ⊢
    rw [readBareS]
    rw [if_pos hc, h]
    rfl

theorem scalar_solid (v : Scalar) : Solid v.text := by
  cases v with
  | quoted s => exact ⟨_, _, rfl, by decide, by decide⟩
  | literal s => exact ⟨_, _, rfl, by decide, by decide⟩
  | bool b => cases b <;> exact ⟨_, _, rfl, by decide, by decide⟩
  | number n => exact writeInline_solid (.int n)

theorem put_put {K V : Type} [DecidableEq K] (d : Dict K V) (k : K) (v w : V) : Dict.put (Dict.put d k v) k w = Dict.put d k w := by
  induction d with
  | nil => simp [Dict.put]
  | cons e d ih =>
    obtain ⟨a, x⟩ := e
    by_cases h : a = k
    · simp [Dict.put, h]
    · simp [Dict.put, h, ih]

theorem similar_self (v : Scalar) : similar (some v.value) v.value = true := by
  cases v <;> simp [Scalar.value, similar, number]

/-- The style of an element of a list. -/
def elemStyle (e : Elem) : VStyle :=
  { prolog := e.lead.text, epilog := e.trail.text, str := some e.value.text, sig := some e.value.value, display := .inline }

/-- The styles with those of the elements. -/
def elemsIn (key : List SKey) : Nat → List Elem → Dict (List SKey) VStyle → Dict (List SKey) VStyle
  | _, [], d => d
  | i, e :: es, d => elemsIn key (i + 1) es (Dict.put d (key ++ [.idx i]) (elemStyle e))

/-- The elements of a value. -/
def elems : Value → List Elem
  | .scalar _ => []
  | .list es _ => es

/-- The style of a value of a line. -/
def lineStyle (l : Line) : VStyle :=
  { prolog := l.after, epilog := l.tail ++ comment l.comment, 
    trailing := match l.value with | .scalar _ => [] | .list es c => closing es c
    str := match l.value with | .scalar v => some v.text | .list _ _ => none
    sig := some l.value.value, display := .inline }

/-- The style of its key. -/
def lineKey (l : Line) : KStyle :=
  { prolog := l.gap.text, epilog := l.before, str := some (writeKeyPart l.name), display := .assignment }

/-- The style sheet with a line. -/
def lineSheet (base : List SKey) (sh : Sheet) (l : Line) : Sheet :=
  ⟨Dict.put sh.keys (base ++ [.name l.name]) (lineKey l),
   Dict.put (elemsIn (base ++ [.name l.name]) 0 (elems l.value) sh.values) (base ++ [.name l.name]) (lineStyle l)⟩

theorem readValueS_scalar (f : Nat) (key : List SKey) (a : Text) (v : Scalar) (b : Text) (c : Option Text) (r : Text) (sh : Sheet)
    (ha : Blanks a) (hv : v.Ok) (hb : Blanks b) (hc : CommentOk c) :
    readValueS (f + 2) key (a ++ (v.text ++ (b ++ (comment c ++ '\n' :: r)))) sh = some (v.value, '\n' :: r,
      setValue sh key v.value { prolog := a, epilog := b ++ comment c, str := some v.text, display := .inline }) := by
  rw [readValueS, nonData_blanks true a _ ha, nonData_solid (scalar_solid v).append]
  simp only [readBareS_scalar f key v _ sh hv (after_tail b c r hb), nonData_tail false b c r hb hc, Bool.false_eq_true, if_false]
  have e2 : consumed (b ++ (comment c ++ '\n' :: r)) ('\n' :: r) = b ++ comment c := by
    have := consumed_append (b ++ comment c) ('\n' :: r)
    simpa using this
  simp only [consumed_append, e2, if_true]

theorem consumed_self (x : Text) : consumed x x = [] := by simpa using consumed_append [] x

/-- A value of a list, up to a comma, a bracket or the end of the line. -/
theorem readValueS_elem (f : Nat) (key : List SKey) (v : Scalar) (r : Text) (sh : Sheet) (hv : v.Ok)
    (hr : ∃ c u, r = c :: u ∧ (c = '\n' ∨ c = ',' ∨ c = ']')) :
    readValueS (f + 2) key (v.text ++ r) sh =
      some (v.value, r, setValue sh key v.value { str := some v.text, display := .inline }) := by
  have ha : After r := by
    obtain ⟨c, u, h, h2⟩ := hr
    exact ⟨c, u, h, Or.inr (Or.inr (Or.inr h2))⟩
  have hn : nonData false false r = some r := by
    obtain ⟨c, u, rfl, h2⟩ := hr
    rcases h2 with rfl | rfl | rfl <;> (rw [nonData]; simp [isSpace])
  rw [readValueS, nonData_solid (scalar_solid v).append]
  simp only [readBareS_scalar f key v _ sh hv ha, hn, consumed_append, consumed_self, if_true]

/-- What follows the elements. -/
def tailOf (c : Option Gap) : Text :=
  match c with
  | none => []
  | some g => ',' :: g.text

theorem closing_cons (e : Elem) (es : List Elem) (c : Option Gap) : closing (e :: es) c = tailOf c := by
  cases c <;> rfl

theorem readListS_close (f : Nat) (key : List SKey) (p q t r : Text) (sh : Sheet) (acc : List TV)
    (ht : nonData true false t = some (']' :: '\n' :: r)) (hp : p = q ++ (']' :: '\n' :: r)) :
    readListS (f + 1) key p t sh acc =
      some (.list acc, '\n' :: r, setValue sh key (.list acc) { trailing := q, display := .inline }) := by
  rw [readListS, ht]
  simp only [nonData_newline, Bool.false_eq_true, if_false, Option.map_some, consumed_self, hp, consumed_append]

theorem nonData_bracket (g : Gap) (r : Text) (h : g.Ok) :
    nonData true false (g.text ++ ']' :: r) = some (']' :: r) := by
  rw [nonData_gap _ _ h, nonData_solid ⟨_, _, rfl, by decide, by decide⟩]

theorem value_head (v : Scalar) (r : Text) : ∃ x u, v.text ++ r = x :: u ∧ x ≠ ']' := by
  cases v with
  | quoted s => exact ⟨_, _, rfl, by decide⟩
  | literal s => exact ⟨_, _, rfl, by decide⟩
  | bool b => cases b <;> exact ⟨_, _, rfl, by decide⟩
  | number n =>
    cases n with
    | ofNat m =>
      obtain ⟨x, xs, hx, hxd⟩ := showNat_cons m
      refine ⟨x, xs ++ r, by simp [Scalar.text, showInt, hx], ?_⟩
      intro e; rw [e] at hxd; revert hxd; decide
    | negSucc m => exact ⟨'-', _, rfl, by decide⟩

/-- The style sheet after an element. -/
def elemSheet (key : List SKey) (sh : Sheet) (i : Nat) (e : Elem) : Sheet :=
  ⟨sh.keys, Dict.put sh.values (key ++ [.idx i]) (elemStyle e)⟩

theorem readListS_step (f : Nat) (key : List SKey) (p : Text) (e : Elem) (R : Text) (sh : Sheet) (acc : List TV) (he : e.Ok)
    (hR : ∃ x u, R = x :: u ∧ (x = ',' ∨ x = ']')) :
    readListS (f + 3) key p (e.lead.text ++ (e.value.text ++ (e.trail.text ++ R))) sh acc =
      match (generalizing := false) R with
      | ',' :: ' ' :: r' => readListS (f + 2) key R r' (elemSheet key sh acc.length e) (acc ++ [e.value.value])
      | ',' :: r' => readListS (f + 2) key R r' (elemSheet key sh acc.length e) (acc ++ [e.value.value])
      | ']' :: r' =>
        (nonData false false r').map (fun r'' => (.list (acc ++ [e.value.value]), r'',
          setValue (elemSheet key sh acc.length e) key (.list (acc ++ [e.value.value])) { epilog := consumed r' r'', display := .inline }))
      | _ => none := by
  obtain ⟨h1, h2, h3, h4, h5, h6⟩ := he
  have hs : Solid (e.value.text ++ (e.trail.text ++ R)) := (scalar_solid _).append
  have hfoll : ∃ x u, e.trail.text ++ R = x :: u ∧ (x = '\n' ∨ x = ',' ∨ x = ']') := by
    rcases h5 with h5 | h5
    · rw [h5]
      obtain ⟨x, u, hx, h⟩ := hR
      exact ⟨x, u, hx, Or.inr h⟩
    · cases ht : e.trail.text with
      | nil => rw [ht] at h5; simp at h5
      | cons x u => rw [ht] at h5; simp at h5; exact ⟨x, _, rfl, Or.inl h5⟩
  have hsol2 : Solid R := by
    obtain ⟨x, u, rfl, h⟩ := hR
    rcases h with rfl | rfl <;> exact ⟨_, _, rfl, by decide, by decide⟩
  have hsheet : ∀ sh : Sheet, setValue (setValue sh (key ++ [.idx acc.length]) e.value.value { str := some e.value.text, display := .inline })
      (key ++ [.idx acc.length]) e.value.value
      { valueStyle (setValue sh (key ++ [.idx acc.length]) e.value.value { str := some e.value.text, display := .inline })
        (key ++ [.idx acc.length]) e.value.value with prolog := e.lead.text, epilog := e.trail.text } =
      elemSheet key sh acc.length e := by
    intro sh
    simp [setValue, valueStyle, predefined, Dict.get_put, similar_self, elemSheet, put_put, elemStyle]
  obtain ⟨x, u, hxu, hx⟩ : ∃ x u, e.value.text ++ (e.trail.text ++ R) = x :: u ∧ x ≠ ']' := value_head e.value _
  rw [readListS, nonData_gap _ _ h1, nonData_solid hs]
  rw [hxu]
  split
  · rename_i e; simp at e
  · rename_i e; simp only [Option.some.injEq, List.cons.injEq] at e; exact absurd e.1 hx
  · rename_i e; simp at e
  · rename_i t1 _ _ e'
    simp only [Option.some.injEq] at e'
    subst e'
    rw [← hxu, readValueS_elem f _ _ _ _ h2 hfoll]
    simp only
    rw [nonData_gap _ _ h3, nonData_solid hsol2]
    simp only [consumed_append, hsheet]
    rfl

theorem nonData_blank (r : Text) : nonData true false (' ' :: r) = nonData true false r :=
  nonData_blanks true [' '] r (by intro c h; simp at h; exact Or.inl h)

theorem elem_head (e : Elem) (he : e.Ok) (r : Text) : ∃ x u, e.text ++ r = x :: u ∧ x ≠ ' ' := by
  obtain ⟨h1, h2, h3, h4, h5, h6⟩ := he
  cases hl : e.lead.text with
  | nil =>
    obtain ⟨x, u, h, hs, -⟩ := scalar_solid e.value
    refine ⟨x, u ++ (e.trail.text ++ r), by simp [Elem.text, hl, h], ?_⟩
    intro e; rw [e] at hs; revert hs; decide
  | cons x u =>
    rw [hl] at h4
    exact ⟨x, _, by simp only [Elem.text, hl, List.cons_append]; rfl, by simpa using h4⟩

theorem readListS_elems (key : List SKey) (c : Option Gap) (r : Text) (hc : ∀ g, c = some g → g.Ok) (es : List Elem) :
    ∀ (e : Elem) (f : Nat) (p : Text) (sh : Sheet) (acc : List TV), es.length + 4 ≤ f → e.Ok → (∀ x ∈ es, x.Ok) →
      readListS f key p (commas ((e :: es).map Elem.text) ++ (tailOf c ++ (']' :: '\n' :: r))) sh acc =
        some (.list (acc ++ (e :: es).map (fun e => e.value.value)), '\n' :: r,
          ⟨sh.keys, Dict.put (elemsIn key acc.length (e :: es) sh.values) key
            { trailing := tailOf c, sig := some (.list (acc ++ (e :: es).map (fun e => e.value.value))), display := .inline }⟩) := by
  induction es with
  | nil =>
    intro e f p sh acc hf he _
    obtain ⟨f, rfl⟩ : ∃ g, f = g + 3 := ⟨f - 3, by simp at hf; omega⟩
    have hf' : 1 ≤ f := by simp at hf; omega
    have htext : commas ([e].map Elem.text) ++ (tailOf c ++ (']' :: '\n' :: r)) =
        e.lead.text ++ (e.value.text ++ (e.trail.text ++ (tailOf c ++ (']' :: '\n' :: r)))) := by
      simp [commas, Elem.text, List.append_assoc]
    rw [htext, readListS_step f key p e _ sh acc he (by
      cases c with
      | none => exact ⟨_, _, rfl, Or.inr rfl⟩
      | some g => exact ⟨_, _, rfl, Or.inl rfl⟩)]
    cases c with
    | none =>
      simp only [tailOf, List.nil_append, nonData_newline, Bool.false_eq_true, if_false, Option.map_some, consumed_self]
      rfl
    | some g =>
      have hg := hc g rfl
      have hb := nonData_bracket g ('\n' :: r) hg
      simp only [tailOf, List.cons_append]
      have fin : ∀ t, nonData true false t = some (']' :: '\n' :: r) →
          readListS (f + 2) key (',' :: (g.text ++ ']' :: '\n' :: r)) t (elemSheet key sh acc.length e) (acc ++ [e.value.value]) =
          some (.list (acc ++ [e.value.value]), '\n' :: r, setValue (elemSheet key sh acc.length e) key (.list (acc ++ [e.value.value]))
            { trailing := ',' :: g.text, display := .inline }) :=
        fun t ht => readListS_close (f + 1) key _ (',' :: g.text) t r _ _ ht rfl
      cases ht : g.text with
      | nil =>
        rw [ht] at hb fin
        simp only [List.nil_append]
        exact fin _ hb
      | cons x w =>
        rw [ht] at hb fin
        by_cases hx : x = ' '
        · subst hx
          simp only [List.cons_append] at hb fin ⊢
          rw [nonData_blank] at hb
          exact fin _ hb
        · simp only [List.cons_append] at hb fin ⊢
          split
          · rename_i e; simp only [List.cons.injEq] at e; exact absurd e.2.1 hx
          · rename_i e; simp only [List.cons.injEq, true_and] at e; rw [← e]; exact fin _ hb
          · rename_i e; simp at e
          · rename_i h _ ; exact absurd rfl (h _)
  | cons e2 es ih =>
    intro e f p sh acc hf he hes
    obtain ⟨f, rfl⟩ : ∃ g, f = g + 3 := ⟨f - 3, by simp at hf; omega⟩
    have htext : commas ((e :: e2 :: es).map Elem.text) ++ (tailOf c ++ (']' :: '\n' :: r)) =
        e.lead.text ++ (e.value.text ++ (e.trail.text ++ (',' :: ' ' ::
          (commas ((e2 :: es).map Elem.text) ++ (tailOf c ++ (']' :: '\n' :: r)))))) := by
      simp [commas, Elem.text, List.append_assoc]
    rw [htext, readListS_step f key p e _ sh acc he ⟨_, _, rfl, Or.inl rfl⟩]
    simp only
    rw [ih e2 (f + 2) _ _ _ (by simp at hf ⊢; omega) (hes e2 List.mem_cons_self) (fun x hx => hes x (List.mem_cons_of_mem _ hx))]
    simp [elemSheet, elemsIn]

/-- A list as the value of a line. -/
theorem readValueS_list (f : Nat) (key : List SKey) (a : Text) (es : List Elem) (c : Option Gap) (r : Text) (sh : Sheet)
    (ha : Blanks a) (hes : ∀ e ∈ es, e.Ok) (hc : ∀ g, c = some g → g.Ok) (hf : es.length + 5 ≤ f) :
    readValueS f key (a ++ ((Value.list es c).text ++ '\n' :: r)) sh = some ((Value.list es c).value, '\n' :: r,
      ⟨sh.keys, Dict.put (elemsIn key 0 es sh.values) key
        { prolog := a, trailing := closing es c, sig := some (Value.list es c).value, display := .inline }⟩) := by
  obtain ⟨f, rfl⟩ : ∃ g, f = g + 2 := ⟨f - 2, by omega⟩
  have hl : readListS f key (commas (es.map Elem.text) ++ (closing es c ++ ']' :: '\n' :: r))
      (commas (es.map Elem.text) ++ (closing es c ++ ']' :: '\n' :: r)) sh [] =
      some ((Value.list es c).value, '\n' :: r, ⟨sh.keys, Dict.put (elemsIn key 0 es sh.values) key
        { trailing := closing es c, sig := some (Value.list es c).value, display := .inline }⟩) := by
    cases es with
    | nil =>
      obtain ⟨f, rfl⟩ : ∃ g, f = g + 1 := ⟨f - 1, by simp at hf; omega⟩
      simp only [List.map_nil, commas, List.nil_append]
      rw [readListS_close f key _ (closing [] c) _ r sh [] (by
        cases c with
        | none => exact nonData_solid ⟨_, _, rfl, by decide, by decide⟩
        | some g => exact nonData_bracket g _ (hc g rfl)) rfl]
      rfl
    | cons e es =>
      rw [closing_cons, readListS_elems key c r hc es e f _ sh [] (by simp at hf ⊢; omega) (hes e List.mem_cons_self)
        (fun x hx => hes x (List.mem_cons_of_mem _ hx))]
      rfl
  have ht : (Value.list es c).text ++ '\n' :: r = '[' :: (commas (es.map Elem.text) ++ (closing es c ++ ']' :: '\n' :: r)) := by
    simp [Value.text]
  rw [ht, readValueS, nonData_blanks true a _ ha, nonData_solid ⟨_, _, rfl, by decide, by decide⟩]
  simp only
  rw [readBareS]
  simp only
  rw [if_neg (by decide), if_neg (by decide), if_neg (by decide), if_pos (by trivial), hl]
  simp only [Option.map_some, nonData_newline, Bool.false_eq_true, if_false, consumed_self, consumed_append]
  have hsim : ∀ v : TV, v = (Value.list es c).value → similar (some v) v = true := by intro v h; rw [h]; rfl
  simp [setValue, valueStyle, predefined, Dict.get_put, hsim _ rfl, put_put]

/-- The fuel a value needs. -/
def fuelOf (v : Value) : Nat := (elems v).length + 5

theorem readValueS_value (f : Nat) (base : List SKey) (l : Line) (r : Text) (sh : Sheet) (hl : l.Ok) (hf : fuelOf l.value ≤ f) :
    readValueS f (base ++ [.name l.name]) (l.after ++ (l.value.text ++ (l.tail ++ (comment l.comment ++ '\n' :: r))))
      ⟨Dict.put sh.keys (base ++ [.name l.name]) (lineKey l), sh.values⟩ = some (l.value.value, '\n' :: r, lineSheet base sh l) := by
  obtain ⟨hg, hk, hb, ha, hv, ht, hc, hlist⟩ := hl
  cases hval : l.value with
  | scalar v =>
    rw [hval] at hv hf
    obtain ⟨f, rfl⟩ : ∃ g, f = g + 2 := ⟨f - 2, by simp [fuelOf] at hf; omega⟩
    simp only [Value.text]
    rw [readValueS_scalar f _ _ _ _ _ r _ ha hv ht hc]
    simp only [lineSheet, hval, elems, elemsIn, setValue, lineStyle, Value.value]
  | list es c =>
    rw [hval] at hv hf hlist
    obtain ⟨e1, e2⟩ := hlist rfl
    have := readValueS_list f (base ++ [.name l.name]) l.after es c r ⟨Dict.put sh.keys (base ++ [.name l.name]) (lineKey l), sh.values⟩
      ha hv.1 hv.2 hf
    rw [e1, e2]
    simp only [comment, List.nil_append]
    rw [this]
    simp [lineSheet, hval, elems, lineStyle, e1, e2, comment]

theorem line_text (l : Line) (r : Text) : l.text ++ r = l.gap.text ++ (writeKeyPart l.name ++ (l.before ++ '=' ::
    (l.after ++ (l.value.text ++ (l.tail ++ (comment l.comment ++ '\n' :: r)))))) := by
  simp [Line.text, List.append_assoc]

theorem readAssignmentsS_line (f : Nat) (base : List SKey) (l : Line) (r : Text) (sh : Sheet) (acc : List (Text × TV))
    (hl : l.Ok) (hn : l.name ∉ acc.map Prod.fst) (hf : fuelOf l.value ≤ f) :
    readAssignmentsS (f + 1) base false (l.text ++ r) sh acc =
      readAssignmentsS f base false r (lineSheet base sh l) (acc ++ [(l.name, l.value.value)]) := by
  have hok := hl
  obtain ⟨hg, hk, hb, ha, hv, ht, hc, hlist⟩ := hl
  rw [line_text, readAssignmentsS]
  have hs : Solid (writeKeyPart l.name ++ (l.before ++ '=' ::
    (l.after ++ (l.value.text ++ (l.tail ++ (comment l.comment ++ '\n' :: r)))))) := (writeKeyPart_solid _).append
  rw [nonData_gap _ _ hg, nonData_solid hs]
  obtain ⟨c, u, hcu, hne⟩ := keyPart_head l.name
  have hform : ∃ w, writeKeyPart l.name ++ (l.before ++ '=' ::
    (l.after ++ (l.value.text ++ (l.tail ++ (comment l.comment ++ '\n' :: r))))) = c :: w := ⟨_, by rw [hcu]; rfl⟩
  rw [readKeyS_line _ _ _ _ hg hk hb]
  obtain ⟨w, hw⟩ := hform
  rw [hw]
  split
  · rename_i e; simp at e
  · rename_i e; simp at e
  · rename_i e; simp only [Option.some.injEq, List.cons.injEq] at e; exact absurd e.1 hne
  · simp only [List.map_cons, List.map_nil]
    have := readValueS_value f base l r sh hok hf
    have e : setKey sh (base ++ [SKey.name l.name]) (keyRead ⟨[l.name], .assignment, l.gap.text, writeKeyPart l.name, l.before,
      '=' :: (l.after ++ (l.value.text ++ (l.tail ++ (comment l.comment ++ '\n' :: r))))⟩) =
      ⟨Dict.put sh.keys (base ++ [.name l.name]) (lineKey l), sh.values⟩ := rfl
    rw [e, this]
    simp only [enter, put_new _ _ _ hn]
    rfl

end TomlStyle
end Pkm
