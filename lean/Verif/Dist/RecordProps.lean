import Verif.Dist.RecordFile
import Verif.ParserLemmas
import Verif.Http.UrlProps
set_option linter.unusedVariables false
set_option linter.unusedSimpArgs false
/-
C61: RECORD files are read back as they were written.
-/
namespace Pkm
namespace Dist

/-! ### The csv reader on written text -/

/-- The reader on the rest of the text. -/
def go (s : Text) (r : Rd) : Option (List (List Text)) := runCsv (events s) r

theorem go_char (c : Char) (s : Text) (r : Rd) (hc : isNewline c = false) (hs : s ≠ []) :
    go (c :: s) r = (r.char c).bind (go s) := by
  have h1 : c ≠ '\r' := by rintro rfl; simp [isNewline] at hc
  have h2 : c ≠ '\n' := by rintro rfl; simp [isNewline] at hc
  unfold go
  rw [events]
  · simp only [h1, h2, or_self, if_false, hs, runCsv]
    cases r.char c <;> rfl
  · intro s' e; exact absurd e h1

theorem go_newline (s : Text) (r : Rd) :
    go ('\r' :: '\n' :: s) r = (r.char '\r').bind (fun r => (r.char '\n').bind (fun r => go s r.endLine)) := by
  unfold go
  rw [events]
  simp only [runCsv]
  cases h : r.char '\r' with
  | none => rfl
  | some r' =>
    simp only [Option.bind_some, runCsv]
    cases r'.char '\n' <;> rfl

theorem go_quoted_char (c : Char) (s : Text) (r : Rd) (hr : r.st = .inQuoted) (hc : c ≠ '"') (hs : s ≠ []) :
    go (c :: s) r = go s (r.add c .inQuoted) := by
  have hch : r.char c = some (r.add c .inQuoted) := by simp [Rd.char, hr, hc]
  have hend : ∀ (r : Rd) c, (r.add c .inQuoted).endLine = r.add c .inQuoted := by intro r c; simp [Rd.endLine, Rd.add]
  have hnl : ∀ s, go ('\n' :: s) (r.add c .inQuoted) = go s ((r.add c .inQuoted).add '\n' .inQuoted) := by
    intro s
    unfold go
    rw [events]
    · simp [runCsv, Rd.char, Rd.add, Rd.endLine]
    · intro s' e; simp at e
  by_cases h1 : c = '\r'
  · subst h1
    cases s with
    | nil => exact absurd rfl hs
    | cons d s =>
      by_cases h2 : d = '\n'
      · subst h2
        rw [go_newline, hch]
        simp only [Option.bind_some]
        rw [hnl]
        simp [Rd.char, Rd.add, Rd.endLine]
      · unfold go
        rw [events]
        · simp only [true_or, if_true, runCsv, hch, hend]
        · intro s' _ e
          exact h2 (List.cons.inj e).1
  · by_cases h2 : c = '\n'
    · subst h2
      unfold go
      rw [events]
      · simp only [or_true, if_true, runCsv, hch, hend]
      · intro s' e; simp at e
    · rw [go_char c s r (by simp [isNewline, h1, h2]) hs, hch]
      rfl

theorem go_quoted (f : Text) : ∀ (r : Rd) (rest : Text), r.st = .inQuoted → rest ≠ [] →
    go (escape f ++ '"' :: rest) r = go rest { r with st := .quoteInQuoted, field := f.reverse ++ r.field } := by
  induction f with
  | nil =>
    intro r rest hr hrest
    simp only [escape, List.nil_append, List.reverse_nil]
    rw [go_char _ _ _ (by decide) hrest]
    simp [Rd.char, hr]
  | cons c f ih =>
    intro r rest hr hrest
    by_cases hc : c = '"'
    · subst hc
      simp only [escape, if_true, List.cons_append]
      rw [go_char _ _ _ (by decide) (by simp)]
      simp only [Rd.char, hr, if_true, Option.bind_some]
      rw [go_char _ _ _ (by decide) (by simp)]
      simp only [Rd.char, if_true, Option.bind_some]
      rw [ih _ _ (by simp [Rd.add]) hrest]
      simp [Rd.add]
    · simp only [escape, hc, if_false, List.cons_append]
      rw [go_quoted_char _ _ _ hr hc (by simp), ih _ _ (by simp [Rd.add]) hrest]
      simp [Rd.add]

theorem go_plain (f : Text) : ∀ (r : Rd) (rest : Text), r.st = .inField → (∀ c ∈ f, special c = false) → rest ≠ [] →
    go (f ++ rest) r = go rest { r with field := f.reverse ++ r.field } := by
  induction f with
  | nil => intro r rest _ _ _; simp
  | cons c f ih =>
    intro r rest hr hf hrest
    have hc := hf c (by simp)
    simp [special] at hc
    simp only [List.cons_append]
    rw [go_char _ _ _ (by simp [isNewline, hc]) (by simp [hrest])]
    simp only [Rd.char, hr, isNewline, hc, beq_iff_eq, Bool.or_self, if_false, Option.bind_some]
    simp only [show (c == '\r') = false by simp [hc], show (c == '\n') = false by simp [hc], Bool.or_self]
    simp only [Bool.false_eq_true, if_false, Option.bind_some]
    rw [ih _ _ (by simp [Rd.add]) (fun d hd => hf d (by simp [hd])) hrest]
    simp [Rd.add]

/-- The state at the start of a field. -/
def AtField (r : Rd) (f : Text) : Prop := r.field = [] ∧ (r.st = .startField ∨ (r.st = .startRecord ∧ f ≠ []))

theorem start_of {r : Rd} {c : Char} (h : r.st = .startField ∨ r.st = .startRecord) (hc : isNewline c = false) :
    r.char c = some (r.start c) := by
  rcases h with h | h <;> simp [Rd.char, h, hc]

theorem go_field_quoted (f : Text) (r : Rd) (rest : Text) (h : r.field = []) (hs : r.st = .startField ∨ r.st = .startRecord)
    (hrest : rest ≠ []) : go (quote f ++ rest) r = go rest { r with st := .quoteInQuoted, field := f.reverse } := by
  unfold quote
  simp only [List.cons_append, List.append_assoc]
  rw [go_char _ _ _ (by decide) (by simp), start_of hs (by decide)]
  simp only [Option.bind_some, Rd.start]
  simp only [show isNewline '"' = false by decide, Bool.false_eq_true, if_false, if_true]
  have := go_quoted f { r with st := .inQuoted } rest rfl hrest
  simpa [h] using this

/-- A field and the comma after it. -/
theorem go_field_comma (f : Text) (r : Rd) (tail : Text) (h : r.field = []) (hs : r.st = .startField ∨ r.st = .startRecord)
    (ht : tail ≠ []) :
    go (writeField f ++ ',' :: tail) r = go tail { r with st := .startField, field := [], fields := f :: r.fields } := by
  unfold writeField
  split
  · rw [go_field_quoted f r _ h hs (by simp), go_char _ _ _ (by decide) ht]
    simp [Rd.char, Rd.save]
  · rename_i hq
    have hq : ∀ c ∈ f, special c = false := by
      intro c hc
      cases e : special c with
      | false => rfl
      | true => exact absurd (List.any_eq_true.2 ⟨c, hc, e⟩) hq
    cases f with
    | nil =>
      simp only [List.nil_append]
      rw [go_char _ _ _ (by decide) ht, start_of hs (by decide)]
      simp [Rd.start, isNewline, Rd.save, h]
    | cons c f =>
      have hc := hq c (by simp)
      simp [special] at hc
      simp only [List.cons_append]
      rw [go_char _ _ _ (by simp [isNewline, hc]) (by simp), start_of hs (by simp [isNewline, hc])]
      simp only [Option.bind_some, Rd.start]
      simp only [show isNewline c = false by simp [isNewline, hc], Bool.false_eq_true, if_false, hc]
      rw [go_plain f _ _ (by simp [Rd.add]) (fun d hd => hq d (by simp [hd])) (by simp), go_char _ _ _ (by decide) ht]
      simp [Rd.char, Rd.save, Rd.add, isNewline, h]

/-- A field and the end of the row. -/
theorem go_field_end (f : Text) (r : Rd) (tail : Text) (h : r.field = []) (hs : r.st = .startField ∨ (r.st = .startRecord ∧ f ≠ [])) :
    go (writeField f ++ '\r' :: '\n' :: tail) r =
      go tail { r with st := .startRecord, field := [], fields := [], rows := (f :: r.fields).reverse :: r.rows } := by
  have hs' : r.st = .startField ∨ r.st = .startRecord := by
    rcases hs with hs | hs
    · exact .inl hs
    · exact .inr hs.1
  unfold writeField
  split
  · rw [go_field_quoted f r _ h hs' (by simp), go_newline]
    simp [Rd.char, Rd.save, isNewline, Rd.endLine, Rd.row]
  · rename_i hq
    have hq : ∀ c ∈ f, special c = false := by
      intro c hc
      cases e : special c with
      | false => rfl
      | true => exact absurd (List.any_eq_true.2 ⟨c, hc, e⟩) hq
    cases f with
    | nil =>
      have hst : r.st = .startField := by
        rcases hs with hs | hs
        · exact hs
        · exact absurd rfl hs.2
      simp only [List.nil_append]
      rw [go_newline]
      simp [Rd.char, hst, Rd.start, isNewline, Rd.save, h, Rd.endLine, Rd.row]
    | cons c f =>
      have hc := hq c (by simp)
      simp [special] at hc
      simp only [List.cons_append]
      rw [go_char _ _ _ (by simp [isNewline, hc]) (by simp), start_of hs' (by simp [isNewline, hc])]
      simp only [Option.bind_some, Rd.start]
      simp only [show isNewline c = false by simp [isNewline, hc], Bool.false_eq_true, if_false, hc]
      rw [go_plain f _ _ (by simp [Rd.add]) (fun d hd => hq d (by simp [hd])) (by simp), go_newline]
      simp [Rd.char, Rd.save, Rd.add, isNewline, h, Rd.endLine, Rd.row]

theorem joinFields_ne (l : List Text) (tail : Text) : joinFields l ++ '\r' :: '\n' :: tail ≠ [] := by simp

theorem go_fields (l : List Text) : ∀ (f : Text) (r : Rd) (tail : Text), r.field = [] →
    (r.st = .startField ∨ (r.st = .startRecord ∧ f :: l ≠ [[]])) →
    go (joinFields (f :: l) ++ '\r' :: '\n' :: tail) r =
      go tail { r with st := .startRecord, field := [], fields := [], rows := (r.fields.reverse ++ f :: l) :: r.rows } := by
  induction l with
  | nil =>
    intro f r tail h hs
    simp only [joinFields]
    rw [go_field_end f r tail h (by simpa using hs)]
    simp
  | cons g l ih =>
    intro f r tail h hs
    simp only [joinFields, List.append_assoc, List.cons_append]
    rw [go_field_comma f r _ h (by rcases hs with hs | hs; exact .inl hs; exact .inr hs.1) (by simp)]
    rw [ih g _ tail rfl (.inl rfl)]
    simp

theorem go_row (row : List Text) (r : Rd) (tail : Text) (h : r.field = []) (hs : r.st = .startRecord) (hf : r.fields = []) :
    go (writeRow row ++ tail) r = go tail { r with rows := row :: r.rows } := by
  unfold writeRow
  by_cases h1 : row = [[]]
  · subst h1
    simp only [if_true, List.append_assoc, List.cons_append, List.nil_append]
    rw [go_field_quoted [] r _ h (.inr hs) (by simp), go_newline]
    simp [Rd.char, Rd.save, isNewline, Rd.endLine, Rd.row, hf, h, ← hs]
  · simp only [h1, if_false, List.append_assoc, List.cons_append, List.nil_append]
    cases row with
    | nil =>
      simp only [joinFields, List.nil_append]
      rw [go_newline]
      simp [Rd.char, hs, isNewline, Rd.endLine, Rd.row, hf, h]
    | cons f l =>
      rw [go_fields l f r tail h (.inr ⟨hs, h1⟩)]
      simp [hf, h, ← hs]

theorem go_rows (rows : List (List Text)) : ∀ (r : Rd), r.field = [] → r.st = .startRecord → r.fields = [] →
    go (writeCsv rows) r = some (r.rows.reverse ++ rows) := by
  induction rows with
  | nil => intro r h hs hf; simp [writeCsv, go, events, runCsv, hs]
  | cons row rows ih =>
    intro r h hs hf
    have : writeCsv (row :: rows) = writeRow row ++ writeCsv rows := by simp [writeCsv]
    rw [this, go_row row r _ h hs hf, ih { r with rows := row :: r.rows } h hs hf]
    simp

/-- C61, the csv layer: whatever rows of texts are written are read back, with commas, quotes, line ends or empty texts. -/
theorem csv_round_trip (rows : List (List Text)) : readCsv (writeCsv rows) = some rows := by
  have := go_rows rows {} rfl rfl rfl
  simpa [go, readCsv] using this

example : readCsv (writeCsv [[['a', ',', '"', '\r', '\n'], []], [[]], []]) = some [[['a', ',', '"', '\r', '\n'], []], [[]], []] := rfl

/-! ### Records -/

theorem rstrip_id (s : Text) (h : ∀ c, s.getLast? = some c → isSpace c = false) : rstrip s = s := by
  unfold rstrip
  have : s.reverse.dropWhile isSpace = s.reverse := by
    cases hr : s.reverse with
    | nil => rfl
    | cons c t =>
      have hl : s.getLast? = some c := by rw [List.getLast?_eq_head?_reverse, hr]; rfl
      simp [List.dropWhile, h c hl]
  rw [this, List.reverse_reverse]

theorem lstrip_id (s : Text) (h : ∀ c, s.head? = some c → isSpace c = false) : lstrip s = s := by
  cases s with
  | nil => rfl
  | cons c s => simp [lstrip, List.dropWhile, h c rfl]

/-- A signature without further `=` and without blanks next to it. -/
structure _root_.Pkm.Spec.CleanSig (s : Sig) : Prop where
  type : '=' ∉ s.type
  value : '=' ∉ s.value
  before : ∀ c, s.type.getLast? = some c → isSpace c = false
  after : ∀ c, s.value.head? = some c → isSpace c = false

open Spec

theorem signature_round_trip (s : Sig) (h : CleanSig s) : Sig.parse s.show = .ok s := by
  unfold Sig.parse Sig.show splitEq
  rw [Http.splitOn_two '=' _ _ h.type h.value]
  simp only [rstrip_id _ h.before, lstrip_id _ h.after]

theorem readInt_showNat (n : Nat) : readInt (showNat n) = .ok n := by
  have : isNumeric (showNat n) = true := by
    unfold isNumeric
    have h1 := showNat_ne n
    simp only [Bool.and_eq_true, List.all_eq_true, Bool.not_eq_true', List.isEmpty_eq_false_iff]
    exact ⟨h1, fun c hc => showNat_digits n c hc⟩
  simp [readInt, this, toNat_showNat]

/-- A record with all its parts. -/
structure _root_.Pkm.Spec.Whole (r : Record) : Prop where
  file : r.file ≠ none
  hash : ∃ s, r.hash = some s ∧ CleanSig s
  length : r.length ≠ none

theorem parse_unparse (r : Record) (h : Whole r) : ∃ row, unparseRow r = .ok row ∧ parseRow row = .ok r := by
  obtain ⟨f, hh, n⟩ := r
  obtain ⟨s, hs, hc⟩ := h.hash
  simp only at hs
  subst hs
  cases f with
  | none => exact absurd rfl h.file
  | some f =>
    cases n with
    | none => exact absurd rfl h.length
    | some n =>
      refine ⟨_, rfl, ?_⟩
      have h1 : s.show ≠ [] := by simp [Sig.show]
      simp [parseRow, column, parseHash, h1, signature_round_trip s hc, parseLength, showNat_ne, readInt_showNat, bind, Except.bind]

theorem mapM_unparse (rs : List Record) (h : ∀ r ∈ rs, Whole r) :
    ∃ rows, rs.mapM unparseRow = .ok rows ∧ rows.mapM parseRow = .ok rs := by
  induction rs with
  | nil => exact ⟨[], rfl, rfl⟩
  | cons r rs ih =>
    obtain ⟨row, h1, h2⟩ := parse_unparse r (h r (by simp))
    obtain ⟨rows, h3, h4⟩ := ih (fun x hx => h x (by simp [hx]))
    refine ⟨row :: rows, ?_, ?_⟩
    · rw [List.mapM_cons]; simp [h1, h3, bind, Except.bind, pure, Except.pure]
    · rw [List.mapM_cons]; simp [h2, h4, bind, Except.bind, pure, Except.pure]

/-- C61: a RECORD whose lines have a path, a signature and a length is read back as it was written, for any paths. Missing:
records without signature or length, such as that of RECORD itself (false, `record_file_violated`). -/
theorem record_file_round_trip_partial (rs : List Record) (h : ∀ r ∈ rs, Whole r) :
    ∃ text, writeRecords rs = .ok text ∧ readRecords text = .ok rs := by
  obtain ⟨rows, h1, h2⟩ := mapM_unparse rs h
  refine ⟨writeCsv rows, by simp [writeRecords, h1, bind, Except.bind], ?_⟩
  simp [readRecords, csv_round_trip, h2]

/-! ### Signatures -/

theorem digit64_inj : ∀ a b, a < 64 → b < 64 → digit64 a = digit64 b → a = b := by
  have : ∀ a : Fin 64, ∀ b : Fin 64, digit64 a.1 = digit64 b.1 → a = b := by decide +kernel
  intro a b ha hb h
  have := this ⟨a, ha⟩ ⟨b, hb⟩ h
  simpa using this

theorem digit64_clean : ∀ a, a < 64 → digit64 a ≠ '=' ∧ isSpace (digit64 a) = false := by
  have : ∀ a : Fin 64, digit64 a.1 ≠ '=' ∧ isSpace (digit64 a.1) = false := by decide +kernel
  intro a ha
  exact this ⟨a, ha⟩

/-- Different digests have different texts. -/
theorem encode64_injective : ∀ (a b : List Nat), (∀ x ∈ a, x < 256) → (∀ x ∈ b, x < 256) → encode64 a = encode64 b → a = b
  | [], [], _, _, _ => rfl
  | [], [_], _, _, h => by simp [encode64] at h
  | [], [_, _], _, _, h => by simp [encode64] at h
  | [], _ :: _ :: _ :: _, _, _, h => by simp [encode64] at h
  | [_], [], _, _, h => by simp [encode64] at h
  | [x], [y], ha, hb, h => by
    simp only [encode64, List.cons.injEq, and_true] at h
    have hx := ha x (by simp)
    have hy := hb y (by simp)
    have h1 := digit64_inj _ _ (by omega) (by omega) h.1
    have h2 := digit64_inj _ _ (by omega) (by omega) h.2
    simp; omega
  | [_], [_, _], _, _, h => by simp [encode64] at h
  | [_], _ :: _ :: _ :: _, _, _, h => by simp [encode64] at h
  | [_, _], [], _, _, h => by simp [encode64] at h
  | [_, _], [_], _, _, h => by simp [encode64] at h
  | [x, x'], [y, y'], ha, hb, h => by
    simp only [encode64, List.cons.injEq, and_true] at h
    have hx := ha x (by simp)
    have hy := hb y (by simp)
    have hx' := ha x' (by simp)
    have hy' := hb y' (by simp)
    have h1 := digit64_inj _ _ (by omega) (by omega) h.1
    have h2 := digit64_inj _ _ (by omega) (by omega) h.2.1
    have h3 := digit64_inj _ _ (by omega) (by omega) h.2.2
    simp; omega
  | [_, _], _ :: _ :: _ :: _, _, _, h => by simp [encode64] at h
  | _ :: _ :: _ :: _, [], _, _, h => by simp [encode64] at h
  | _ :: _ :: _ :: _, [_], _, _, h => by simp [encode64] at h
  | _ :: _ :: _ :: _, [_, _], _, _, h => by simp [encode64] at h
  | x :: x' :: x'' :: s, y :: y' :: y'' :: t, ha, hb, h => by
    simp only [encode64, List.cons.injEq] at h
    have hx := ha x (by simp)
    have hy := hb y (by simp)
    have hx' := ha x' (by simp)
    have hy' := hb y' (by simp)
    have hx'' := ha x'' (by simp)
    have hy'' := hb y'' (by simp)
    have h1 := digit64_inj _ _ (by omega) (by omega) h.1
    have h2 := digit64_inj _ _ (by omega) (by omega) h.2.1
    have h3 := digit64_inj _ _ (by omega) (by omega) h.2.2.1
    have h4 := digit64_inj _ _ (by omega) (by omega) h.2.2.2.1
    have h5 := encode64_injective s t (fun z hz => ha z (by simp [hz])) (fun z hz => hb z (by simp [hz])) h.2.2.2.2
    simp [h5]; omega

theorem encode64_clean : ∀ (a : List Nat), (∀ x ∈ a, x < 256) → ∀ c ∈ encode64 a, c ≠ '=' ∧ isSpace c = false
  | [], _, c, hc => by simp [encode64] at hc
  | [x], ha, c, hc => by
    have hx := ha x (by simp)
    simp only [encode64, List.mem_cons, List.not_mem_nil, or_false] at hc
    rcases hc with rfl | rfl <;> exact digit64_clean _ (by omega)
  | [x, y], ha, c, hc => by
    have hx := ha x (by simp)
    have hy := ha y (by simp)
    simp only [encode64, List.mem_cons, List.not_mem_nil, or_false] at hc
    rcases hc with rfl | rfl | rfl <;> exact digit64_clean _ (by omega)
  | x :: y :: z :: s, ha, c, hc => by
    have hx := ha x (by simp)
    have hy := ha y (by simp)
    have hz := ha z (by simp)
    simp only [encode64, List.mem_cons] at hc
    rcases hc with rfl | rfl | rfl | rfl | hc
    · exact digit64_clean _ (by omega)
    · exact digit64_clean _ (by omega)
    · exact digit64_clean _ (by omega)
    · exact digit64_clean _ (by omega)
    · exact encode64_clean s (fun w hw => ha w (by simp [hw])) c hc

/-- C61: a signature that was written for a digest accepts exactly the data with the same digest, also after the RECORD was written
and read. -/
theorem signature_accepts (type : Text) (d e : List Nat) (hd : ∀ x ∈ d, x < 256) (he : ∀ x ∈ e, x < 256) (digest : Text → Option (List Nat))
    (ht : '=' ∉ type) (hb : ∀ c, type.getLast? = some c → isSpace c = false) (hx : digest type = some e) :
    ∃ s, Sig.parse (Sig.show ⟨type, encode64 d⟩) = .ok s ∧ (validate digest s = some true ↔ e = d) := by
  refine ⟨⟨type, encode64 d⟩, signature_round_trip _ ⟨ht, ?_, hb, ?_⟩, ?_⟩
  · intro h; exact (encode64_clean d hd _ h).1 rfl
  · intro c hc; exact (encode64_clean d hd c (List.mem_of_mem_head? hc)).2
  · simp only [validate, hx, Option.some.injEq, beq_iff_eq]
    constructor
    · exact encode64_injective e d he hd
    · rintro rfl; rfl

/-! ### What is refused, and the base64 digits -/

theorem splitOn_length (c : Char) (s : Text) : (splitOn c s).length = s.count c + 1 := by
  induction s with
  | nil => rfl
  | cons a s ih =>
    by_cases h : a = c
    · subst h; simp [splitOn, ih]
    · simp only [splitOn, if_neg h, List.count_cons_of_ne h]
      cases hs : splitOn c s with
      | nil => rw [hs] at ih; simp at ih
      | cons x xs => rw [hs] at ih; simpa using ih

/-- C61: a signature with no or with several `=` is refused. -/
theorem signature_malformed (s : Text) (h : s.count '=' ≠ 1) : Sig.parse s = .error .value := by
  have hl := splitOn_length '=' s
  unfold Sig.parse splitEq
  split
  · rename_i a b hs
    rw [hs] at hl; simp at hl; omega
  · rfl

theorem mapM_error (rows : List (List Text)) (row : List Text) (h : row ∈ rows) (e : Err) (he : parseRow row = .error e) :
    ∃ e, rows.mapM parseRow = .error e := by
  induction rows with
  | nil => simp at h
  | cons r rows ih =>
    rw [List.mapM_cons]
    cases hr : parseRow r with
    | error x => exact ⟨x, rfl⟩
    | ok x =>
      have hne : row ∈ rows := by
        rcases List.mem_cons.1 h with rfl | h
        · rw [he] at hr; simp at hr
        · exact h
      obtain ⟨e', h'⟩ := ih hne
      exact ⟨e', by rw [h']; rfl⟩

/-- C61: a file with a line of more than three columns is refused. -/
theorem record_columns_refused (rows : List (List Text)) (row : List Text) (h : row ∈ rows) (hl : 3 < row.length) :
    ∃ e, readRecords (writeCsv rows) = .error e := by
  unfold readRecords
  rw [csv_round_trip]
  exact mapM_error rows row h .index (by unfold parseRow; rw [if_pos hl])

/-- C61: a file with a line whose signature is malformed is refused. -/
theorem record_hash_refused (rows : List (List Text)) (f s : Text) (rest : List Text) (h : (f :: s :: rest) ∈ rows) (hs : s ≠ [])
    (hc : s.count '=' ≠ 1) : ∃ e, readRecords (writeCsv rows) = .error e := by
  unfold readRecords
  rw [csv_round_trip]
  by_cases hl : (f :: s :: rest).length > 3
  · exact mapM_error rows _ h .index (by unfold parseRow; rw [if_pos hl])
  · refine mapM_error rows _ h .value ?_
    unfold parseRow
    rw [if_neg hl]
    simp [column, parseHash, hs, signature_malformed s hc]
    rfl

end Dist

namespace Spec

/-- The digits of the urlsafe base64 alphabet (RFC 4648, table 2). -/
def base64Alphabet : Text := ['A', 'B', 'C', 'D', 'E', 'F', 'G', 'H', 'I', 'J', 'K', 'L', 'M', 'N', 'O', 'P', 'Q', 'R', 'S', 'T', 'U', 'V', 'W',
  'X', 'Y', 'Z', 'a', 'b', 'c', 'd', 'e', 'f', 'g', 'h', 'i', 'j', 'k', 'l', 'm', 'n', 'o', 'p', 'q', 'r', 's', 't', 'u', 'v', 'w', 'x', 'y',
  'z', '0', '1', '2', '3', '4', '5', '6', '7', '8', '9', '-', '_']

/-- The bits of a byte, the highest first. -/
def byteBits (n : Nat) : List Nat := [n / 128 % 2, n / 64 % 2, n / 32 % 2, n / 16 % 2, n / 8 % 2, n / 4 % 2, n / 2 % 2, n % 2]

/-- The number with the given bits. -/
def bitsValue (l : List Nat) : Nat := l.foldl (fun a b => 2 * a + b) 0

/-- Groups of six bits; the last group is filled up with zeros. -/
def sixes : List Nat → List (List Nat)
  | [] => []
  | a :: b :: c :: d :: e :: f :: l => [a, b, c, d, e, f] :: sixes l
  | l => [l ++ List.replicate (6 - l.length) 0]

/-- The base64 text of bytes, without padding. -/
def base64 (bytes : List Nat) : Text := (sixes (bytes.flatMap byteBits)).filterMap (fun g => base64Alphabet[bitsValue g]?)

end Spec

namespace Dist
open Spec

theorem digit64_alphabet : ∀ n, n < 64 → base64Alphabet[n]? = some (digit64 n) := by decide

/-- C61: the texts of signatures are the urlsafe base64 texts of the digests, without padding. -/
theorem encode64_is_base64 : ∀ (a : List Nat), (∀ x ∈ a, x < 256) → encode64 a = base64 a
  | [], _ => rfl
  | [a], h => by
    have ha := h a (by simp)
    have h1 : bitsValue [a / 128 % 2, a / 64 % 2, a / 32 % 2, a / 16 % 2, a / 8 % 2, a / 4 % 2] = a / 4 := by
      simp only [bitsValue, List.foldl]; omega
    have h2 : bitsValue ([a / 2 % 2, a % 2] ++ List.replicate (6 - [a / 2 % 2, a % 2].length) 0) = a % 4 * 16 := by
      simp only [bitsValue, List.foldl, List.length, List.replicate, List.cons_append, List.nil_append]; omega
    simp only [base64, List.flatMap_cons, List.flatMap_nil, List.append_nil, byteBits, sixes, List.filterMap_cons, List.filterMap_nil, h1, h2,
      digit64_alphabet _ (show a / 4 < 64 by omega), digit64_alphabet _ (show a % 4 * 16 < 64 by omega), encode64]
  | [a, b], h => by
    have ha := h a (by simp)
    have hb := h b (by simp)
    have h1 : bitsValue [a / 128 % 2, a / 64 % 2, a / 32 % 2, a / 16 % 2, a / 8 % 2, a / 4 % 2] = a / 4 := by
      simp only [bitsValue, List.foldl]; omega
    have h2 : bitsValue [a / 2 % 2, a % 2, b / 128 % 2, b / 64 % 2, b / 32 % 2, b / 16 % 2] = a % 4 * 16 + b / 16 := by
      simp only [bitsValue, List.foldl]; omega
    have h3 : bitsValue (b / 8 % 2 :: b / 4 % 2 :: b / 2 % 2 :: b % 2 ::
        List.replicate (6 - [b / 8 % 2, b / 4 % 2, b / 2 % 2, b % 2].length) 0) = b % 16 * 4 := by
      simp only [bitsValue, List.foldl, List.length, List.replicate, List.cons_append, List.nil_append]; omega
    simp only [base64, List.flatMap_cons, List.flatMap_nil, List.append_nil, byteBits, List.cons_append, List.nil_append, sixes,
      List.filterMap_cons, List.filterMap_nil, h1, h2, h3, digit64_alphabet _ (show a / 4 < 64 by omega),
      digit64_alphabet _ (show a % 4 * 16 + b / 16 < 64 by omega), digit64_alphabet _ (show b % 16 * 4 < 64 by omega), encode64]
  | a :: b :: c :: s, h => by
    have ha := h a (by simp)
    have hb := h b (by simp)
    have hc := h c (by simp)
    have h1 : bitsValue [a / 128 % 2, a / 64 % 2, a / 32 % 2, a / 16 % 2, a / 8 % 2, a / 4 % 2] = a / 4 := by
      simp only [bitsValue, List.foldl]; omega
    have h2 : bitsValue [a / 2 % 2, a % 2, b / 128 % 2, b / 64 % 2, b / 32 % 2, b / 16 % 2] = a % 4 * 16 + b / 16 := by
      simp only [bitsValue, List.foldl]; omega
    have h3 : bitsValue [b / 8 % 2, b / 4 % 2, b / 2 % 2, b % 2, c / 128 % 2, c / 64 % 2] = b % 16 * 4 + c / 64 := by
      simp only [bitsValue, List.foldl]; omega
    have h4 : bitsValue [c / 32 % 2, c / 16 % 2, c / 8 % 2, c / 4 % 2, c / 2 % 2, c % 2] = c % 64 := by
      simp only [bitsValue, List.foldl]; omega
    have ih := encode64_is_base64 s (fun x hx => h x (by simp [hx]))
    unfold base64 at ih
    simp only [base64, List.flatMap_cons, byteBits, List.cons_append, List.nil_append, sixes, List.filterMap_cons, h1, h2, h3, h4,
      digit64_alphabet _ (show a / 4 < 64 by omega), digit64_alphabet _ (show a % 4 * 16 + b / 16 < 64 by omega),
      digit64_alphabet _ (show b % 16 * 4 + c / 64 < 64 by omega), digit64_alphabet _ (show c % 64 < 64 by omega), encode64, ih]

example : base64 [255, 254, 253, 0] = ['_', '_', '7', '9', 'A', 'A'] := by decide

/-! ### Examples and failures -/

namespace Example

def sha : Text := ['s', 'h', 'a', '2', '5', '6']

/-- A path with a comma, a quote and a line feed. -/
def odd : Record := ⟨some ['a', ',', '"', '\n'], some ⟨sha, encode64 [0, 255, 17, 4]⟩, some 120⟩

def plain : Record := ⟨some ['b', '/', 'c'], some ⟨sha, encode64 [9, 9]⟩, some 0⟩

example : ∀ r ∈ [odd, plain], Whole r := by
  have h : ∀ (l : Text), (∀ c ∈ l, c ≠ '=' ∧ isSpace c = false) → CleanSig ⟨sha, l⟩ := by
    intro l hl
    refine ⟨show '=' ∉ sha by decide, fun hx => (hl _ hx).1 rfl, ?_, fun c hc => (hl c (List.mem_of_mem_head? hc)).2⟩
    intro c hc
    have : c = '6' := by simpa [sha] using hc.symm
    subst this
    decide
  intro r hr
  simp at hr
  rcases hr with rfl | rfl
  · exact ⟨by simp [odd], ⟨_, rfl, h _ (encode64_clean _ (by decide))⟩, by simp [odd]⟩
  · exact ⟨by simp [plain], ⟨_, rfl, h _ (encode64_clean _ (by decide))⟩, by simp [plain]⟩

/-- The lines of a wheel as every tool writes them: RECORD itself has neither signature nor length. -/
def usual : Text := ['a', ',', 's', '=', 'x', ',', '1', '\r', '\n', 'R', ',', ',', '\r', '\n']

end Example

/-- C61 is false for lines without signature: a RECORD that was just loaded cannot be saved (`KeyError`), and the attempt has
emptied the file from that line on. -/
theorem record_file_violated : ∃ rs, readRecords Example.usual = .ok rs ∧ rs.length = 2 ∧ writeRecords rs = .error .key ∧
    readRecords (writtenBefore rs) = .ok (rs.take 1) := by
  refine ⟨[⟨some ['a'], some ⟨['s'], ['x']⟩, some 1⟩, ⟨some ['R'], none, none⟩], rfl, rfl, rfl, rfl⟩

/-- An empty line is taken as a record without a path. -/
theorem record_empty_line_violated : readRecords ['\n'] = .ok [⟨none, none, none⟩] := rfl

end Dist
end Pkm
