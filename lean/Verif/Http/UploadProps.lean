import Verif.Http.Upload
set_option linter.unusedVariables false
set_option linter.unusedSimpArgs false
/-
Property C69: what is uploaded is what the server reads: all fields, the file and its digests.
-/
namespace Pkm
namespace Spec

/-! How a server reads a form (RFC 2046, RFC 7578). -/

/-- The text before and after the first `d`. -/
def formCut (d : Text) : Text → Option (Text × Text)
  | [] => if d = [] then some ([], []) else none
  | c :: cs => if d.isPrefixOf (c :: cs) then some ([], (c :: cs).drop d.length)
    else (formCut d cs).map (fun p => (c :: p.1, p.2))

/-- The text between all `d`. -/
def formPieces (d : Text) : Nat → Text → List Text
  | 0, s => [s]
  | n + 1, s => match formCut d s with
    | none => [s]
    | some p => p.1 :: formPieces d n p.2

/-- One field as the server sees it. -/
structure FormPart where
  name : Text
  filename : Option Text
  content : Text
deriving DecidableEq

/-- The header with the name: `Content-Disposition: form-data; name="..."`, perhaps with `; filename="..."`. -/
def readDisposition (l : Text) : Option (Text × Option Text) :=
  if t!"Content-Disposition: form-data; name=\"".isPrefixOf l then
    let r := l.drop t!"Content-Disposition: form-data; name=\"".length
    let rest := r.dropWhile (· != '"')
    if rest = ['"'] then some (r.takeWhile (· != '"'), none)
    else if t!"\"; filename=\"".isPrefixOf rest then
      let f := rest.drop t!"\"; filename=\"".length
      if f.dropWhile (· != '"') = ['"'] then some (r.takeWhile (· != '"'), some (f.takeWhile (· != '"'))) else none
    else none
  else none

/-- A part: headers, an empty line, the content. The header with the name comes first. -/
def readPart (p : Text) : Option FormPart :=
  if ['\r', '\n'].isPrefixOf p then
    match formCut ['\r', '\n', '\r', '\n'] (p.drop 2) with
    | none => none
    | some (hs, content) => (readDisposition (hs.takeWhile (· != '\r'))).map (fun x => ⟨x.1, x.2, content⟩)
  else none

/-- A line end at the end does not belong to the content. -/
def withoutLineEnd (p : Text) : Text := if ['\r', '\n'].isSuffixOf p then p.dropLast.dropLast else p

/-- The parts, and whether the end of the form was marked. If not, the last part goes up to the end of the data. -/
def readParts : List Text → Option (List FormPart × Bool)
  | [] => some ([], false)
  | p :: ps =>
    if ['-', '-'].isPrefixOf p then some ([], true)
    else if ps = [] then (readPart (withoutLineEnd p)).map (fun x => ([x], false))
    else match readPart p, readParts ps with
      | some x, some r => some (x :: r.1, r.2)
      | _, _ => none

/-- The form with boundary `b`: the parts are between `\r\n--b`. -/
def formRead (b s : Text) : Option (List FormPart × Bool) :=
  match formPieces (['\r', '\n', '-', '-'] ++ b) s.length (['\r', '\n'] ++ s) with
  | [] :: ps => readParts ps
  | _ => none

end Spec

namespace Upload
open Spec

theorem cut_none_iff (d : Text) : ∀ s, formCut d s = none ↔ ¬ (d <:+: s)
  | [] => by
    by_cases h : d = []
    · simp [formCut, h]
    · simp [formCut, h]
  | c :: cs => by
    by_cases h : d.isPrefixOf (c :: cs)
    · simp only [formCut, h, if_true]
      simp only [reduceCtorEq, false_iff, Decidable.not_not]
      exact (List.isPrefixOf_iff_prefix.1 h).isInfix
    · have h' : ¬ d <+: c :: cs := fun e => h (List.isPrefixOf_iff_prefix.2 e)
      rw [formCut, if_neg h, Option.map_eq_none_iff, cut_none_iff d cs, List.infix_cons_iff]
      simp [h']

theorem cut_skip (e l r : Text) (h : '\r' ∉ l) :
    formCut ('\r' :: e) (l ++ r) = (formCut ('\r' :: e) r).map (fun p => (l ++ p.1, p.2)) := by
  induction l with
  | nil => simp
  | cons c l ih =>
    have hc : ¬ '\r' = c := fun e => h (by rw [e]; simp)
    simp only [List.cons_append, formCut, List.isPrefixOf, beq_iff_eq, hc, ih (fun h' => h (by simp [h']))]
    simp [Option.map_map, Function.comp_def, hc]

theorem cut_found (e p r : Text) (he : '\r' ∉ e) (hp : ¬ ('\r' :: e <:+: p)) :
    formCut ('\r' :: e) (p ++ '\r' :: e ++ r) = some (p, r) := by
  induction p with
  | nil => simp [formCut, List.isPrefixOf_iff_prefix]
  | cons c p ih =>
    have hp' : ¬ ('\r' :: e <:+: p) := fun h => hp (h.trans (List.suffix_cons c p).isInfix)
    have hn : ¬ ('\r' :: e <+: c :: (p ++ '\r' :: e ++ r)) := by
      rintro ⟨t, h⟩
      have h : ('\r' :: e) ++ t = (c :: p) ++ ('\r' :: e ++ r) := by simpa using h
      rcases List.append_eq_append_iff.1 h with ⟨as, h1, h2⟩ | ⟨bs, h1, h2⟩
      · exact hp (by rw [h1]; exact (List.prefix_append _ _).isInfix)
      · cases bs with
        | nil => exact hp (by rw [h1]; simp)
        | cons x bs =>
          simp only [List.cons_append, List.cons.injEq] at h1 h2
          exact he (by rw [h1.2, ← h2.1]; simp)
    rw [List.cons_append, List.cons_append, formCut, if_neg (fun h => hn (List.isPrefixOf_iff_prefix.1 h)), ih hp']
    rfl

theorem chunksFrom_flatten (n : Nat) (avail : Nat → Nat) (hn : 0 < n) (ha : ∀ i, 0 < avail i) : ∀ (fuel i : Nat) (s : Text),
    s.length ≤ fuel → (chunksFrom n avail fuel i s).flatten = s := by
  intro fuel
  induction fuel with
  | zero => intro i s h; simp at h; simp [chunksFrom, h]
  | succ fuel ih =>
    intro i s h
    have hm : ¬ min n (avail i) = 0 := by have := ha i; omega
    by_cases hs : s = []
    · simp [chunksFrom, hs]
    · simp only [chunksFrom, hm, hs, or_self, if_false, List.flatten_cons]
      rw [ih _ _ (by simp; have := ha i; omega), List.take_append_drop]

/-- C69: the chunks of a file are its content, in order, whatever the size of chunks and however much each read gives. -/
theorem chunks_content (n : Nat) (avail : Nat → Nat) (hn : 0 < n) (ha : ∀ i, 0 < avail i) (s : Text) :
    (chunks n avail s).flatten = s ∧ ∀ c ∈ chunks n avail s, c ≠ [] ∧ c.length ≤ n := by
  refine ⟨chunksFrom_flatten n avail hn ha _ _ _ (by omega), ?_⟩
  have : ∀ (fuel i : Nat) (s : Text), ∀ c ∈ chunksFrom n avail fuel i s, c ≠ [] ∧ c.length ≤ n := by
    intro fuel
    induction fuel with
    | zero => intro i s c hc; simp [chunksFrom] at hc
    | succ fuel ih =>
      intro i s c hc
      simp only [chunksFrom] at hc
      split at hc
      · simp at hc
      · rename_i h
        simp only [not_or] at h
        rcases List.mem_cons.1 hc with rfl | hc
        · refine ⟨?_, by simp; omega⟩
          simp [h.1, h.2]
        · exact ih _ _ c hc
  exact this _ _ _

example : chunks 4 (fun i => i + 1) t!"abcdefgh" = [t!"a", t!"bc", t!"def", t!"gh"] := by decide

/-! ### Reading a form -/

/-- The field as a server sees it. -/
def asPart (f : Field) : FormPart :=
  { name := f.name,
    filename := match f.filename with
      | none => none
      | some n => if n = [] then none else some n,
    content := match f.payload with
      | .text s => s
      | .file s => s
      | .other => [] }

/-- No line of the text starts with the boundary. -/
def NoBoundary (b s : Text) : Prop := ¬ (['\r', '\n', '-', '-'] ++ b <:+: ['\r', '\n'] ++ s)

/-- A field that can be sent: quotes and line ends are not in its names, the boundary not in its content, and its payload is a text or a
file. -/
structure Plain (b : Text) (f : Field) : Prop where
  name : ∀ c ∈ f.name, c ≠ '"' ∧ c ≠ '\r'
  filename : ∀ n, f.filename = some n → ∀ c ∈ n, c ≠ '"' ∧ c ≠ '\r'
  contentType : '\r' ∉ f.contentType
  payload : f.payload ≠ .other
  content : NoBoundary b (asPart f).content

/-- Streams give something until their end. -/
def Reads (r : Reading) : Prop := 0 < r.size ∧ ∀ i, 0 < r.avail i

/-- A part as it is sent. -/
def part (f : Field) : Text := crlf ++ (render f ++ (asPart f).content)

theorem payload_ok (r : Reading) (hr : Reads r) (f : Field) (h : f.payload ≠ .other) :
    ∃ cs p, payloadChunks r f.payload = some (cs, p) ∧ cs.flatten = (asPart f).content := by
  unfold asPart
  cases hp : f.payload with
  | text s => exact ⟨_, _, rfl, by simp⟩
  | file s => exact ⟨_, _, rfl, (chunks_content r.size r.avail hr.1 hr.2 s).1⟩
  | other => exact absurd hp h

theorem body_parts (r : Reading) (hr : Reads r) (b : Text) (fs : List Field) (h : ∀ f ∈ fs, f.payload ≠ .other) :
    crlf ++ body r b fs = fs.flatMap (fun f => ['\r', '\n', '-', '-'] ++ b ++ part f) ++ crlf := by
  induction fs with
  | nil => simp [body, iterate]
  | cons f fs ih =>
    obtain ⟨cs, p, h1, h2⟩ := payload_ok r hr f (h f (by simp))
    have ih := ih (fun x hx => h x (by simp [hx]))
    simp only [body] at ih
    simp only [body, iterate, h1, List.flatMap_cons, List.flatten_append, List.flatten_cons, List.flatten_nil, h2, part]
    simp only [List.append_nil, List.append_assoc, List.cons_append, List.nil_append]
    rw [ih]
    simp [crlf, List.append_assoc, part]

theorem disposition_cr (b : Text) (f : Field) (h : Plain b f) : '\r' ∉ disposition f := by
  intro hc
  simp only [disposition, List.mem_append, List.mem_cons] at hc
  rcases hc with (hc | hc) | hc | hc
  · revert hc; decide
  · exact (h.name _ hc).2 rfl
  · revert hc; decide
  · unfold filenamePart at hc
    cases hf : f.filename with
    | none => simp [hf] at hc
    | some n =>
      simp only [hf] at hc
      by_cases hn : n = []
      · simp [hn] at hc
      · simp only [hn, if_false, List.mem_append] at hc
        rcases hc with (hc | hc) | hc
        · revert hc; decide
        · exact (h.filename n hf _ hc).2 rfl
        · revert hc; decide

/-- The two header lines. -/
theorem render_form (f : Field) : ∃ a c : Text, render f = ('C' :: a) ++ (crlf ++ (('C' :: c) ++ (crlf ++ crlf))) ∧
    'C' :: a = t!"Content-Disposition: " ++ disposition f ∧ 'C' :: c = t!"Content-Type: " ++ f.contentType :=
  ⟨_, _, by simp [render], rfl, rfl⟩

theorem part_clean (b : Text) (f : Field) (h : Plain b f) : ¬ (['\r', '\n', '-', '-'] ++ b <:+: part f) := by
  rw [← cut_none_iff]
  obtain ⟨a, c, h1, h2, h3⟩ := render_form f
  have ha : '\r' ∉ 'C' :: a := by
    rw [h2]; simp only [List.mem_append, not_or]
    exact ⟨by decide, disposition_cr b f h⟩
  have hc : '\r' ∉ 'C' :: c := by
    rw [h3]; simp only [List.mem_append, not_or]
    exact ⟨by decide, h.contentType⟩
  have hb := (cut_none_iff _ _).2 h.content
  simp only [List.cons_append, List.nil_append] at hb ⊢
  have step : ∀ x t, x ≠ '-' → '\r' ∉ ['\n'] → formCut ('\r' :: '\n' :: '-' :: '-' :: b) ('\r' :: '\n' :: x :: t) =
      (formCut ('\r' :: '\n' :: '-' :: '-' :: b) (x :: t)).map (fun p => ('\r' :: '\n' :: p.1, p.2)) := by
    intro x t hx _
    have hx' : ¬ '-' = x := fun e => hx e.symm
    simp [formCut, hx', Option.map_map, Function.comp_def]
  rw [part, h1]
  simp only [crlf, List.cons_append, List.nil_append, List.append_assoc]
  rw [step _ _ (by decide) (by decide), ← List.cons_append, cut_skip _ _ _ ha, step _ _ (by decide) (by decide), ← List.cons_append,
    cut_skip _ _ _ hc, step _ _ (by decide) (by decide), hb]
  rfl

theorem cut_append (d t : Text) : ∀ s x y, formCut d s = some (x, y) → formCut d (s ++ t) = some (x, y ++ t)
  | [], x, y, h => by
    by_cases hd : d = []
    · subst hd
      simp [formCut] at h
      cases t <;> simp [formCut, h]
    · simp [formCut, hd] at h
  | c :: cs, x, y, h => by
    by_cases hp : d.isPrefixOf (c :: cs)
    · have hp' : d.isPrefixOf (c :: cs ++ t) :=
        List.isPrefixOf_iff_prefix.2 (List.prefix_append_of_prefix (List.isPrefixOf_iff_prefix.1 hp))
      rw [formCut, if_pos hp] at h
      have hl := (List.isPrefixOf_iff_prefix.1 hp).length_le
      simp only [Option.some.injEq, Prod.mk.injEq] at h
      rw [List.cons_append] at hp' ⊢
      rw [formCut, if_pos hp', ← h.1, ← h.2, ← List.cons_append, List.drop_append_of_le_length hl]
    · rw [formCut, if_neg hp] at h
      cases hc : formCut d cs with
      | none => simp [hc] at h
      | some q =>
        simp only [hc, Option.map_some, Option.some.injEq, Prod.mk.injEq] at h
        have ih := cut_append d t cs q.1 q.2 hc
        by_cases hp' : d.isPrefixOf (c :: cs ++ t)
        · have hi : d <:+: cs := by
            by_cases hi : d <:+: cs
            · exact hi
            · rw [(cut_none_iff d cs).2 hi] at hc; simp at hc
          exact absurd (List.isPrefixOf_iff_prefix.2 (List.prefix_of_prefix_length_le (List.isPrefixOf_iff_prefix.1 hp')
            (List.prefix_append (c :: cs) t) (by have := hi.length_le; simp; omega))) hp
        · rw [List.cons_append] at hp' ⊢
          rw [formCut, if_neg hp', ih]
          simp [← h.1, ← h.2]

theorem part_clean_end (b : Text) (hb : '\r' ∉ b) (f : Field) (h : Plain b f) : ¬ (['\r', '\n', '-', '-'] ++ b <:+: part f ++ crlf) := by
  have h1 := cut_found ('\n' :: '-' :: '-' :: b) (part f) [] (by simp [hb]) (by simpa using part_clean b f h)
  rw [← cut_none_iff]
  cases hc : formCut (['\r', '\n', '-', '-'] ++ b) (part f ++ crlf) with
  | none => rfl
  | some q =>
    have := cut_append _ ('-' :: '-' :: b) _ q.1 q.2 hc
    simp [crlf] at this h1
    rw [this] at h1
    simp at h1

theorem dropWhile_no (l r : Text) (h : ∀ c ∈ l, c ≠ '"') : (l ++ '"' :: r).dropWhile (· != '"') = '"' :: r ∧
    (l ++ '"' :: r).takeWhile (· != '"') = l := by
  induction l with
  | nil => simp
  | cons c l ih =>
    have hc := h c (by simp)
    have ih := ih (fun x hx => h x (by simp [hx]))
    simp [hc, ih]

theorem read_disposition (b : Text) (f : Field) (h : Plain b f) :
    readDisposition (t!"Content-Disposition: " ++ disposition f) = some ((asPart f).name, (asPart f).filename) := by
  have e : t!"Content-Disposition: " ++ disposition f = t!"Content-Disposition: form-data; name=\"" ++ (f.name ++ '"' :: filenamePart f.filename) := by
    simp [disposition]
  have hp : ∀ t, t!"Content-Disposition: form-data; name=\"".isPrefixOf (t!"Content-Disposition: form-data; name=\"" ++ t) = true :=
    fun t => List.isPrefixOf_iff_prefix.2 (List.prefix_append _ _)
  have hd : ∀ l t : Text, (l ++ t).drop l.length = t := fun l t => by simp
  obtain ⟨d1, d2⟩ := dropWhile_no f.name (filenamePart f.filename) (fun c hc => (h.name c hc).1)
  rw [e]
  simp only [readDisposition, hp, if_true, hd, d1, d2]
  cases hf : f.filename with
  | none => simp [filenamePart, asPart, hf]
  | some n =>
    by_cases hn : n = []
    · simp [filenamePart, asPart, hf, hn]
    · obtain ⟨d3, d4⟩ := dropWhile_no n [] (fun c hc => (h.filename n hf c hc).1)
      have e2 : ('"' :: filenamePart (some n)) = t!"\"; filename=\"" ++ (n ++ ['"']) := by simp [filenamePart, hn]
      have hp2 : t!"\"; filename=\"".isPrefixOf (t!"\"; filename=\"" ++ (n ++ ['"'])) = true :=
        List.isPrefixOf_iff_prefix.2 (List.prefix_append _ _)
      rw [e2]
      simp only [hp2, if_true, hd, d3, d4]
      simp [asPart, hf, hn]

theorem read_part (b : Text) (f : Field) (h : Plain b f) : readPart (part f) = some (asPart f) := by
  obtain ⟨a, c, h1, h2, h3⟩ := render_form f
  have ha : '\r' ∉ 'C' :: a := by
    rw [h2]; simp only [List.mem_append, not_or]
    exact ⟨by decide, disposition_cr b f h⟩
  have hc : '\r' ∉ 'C' :: c := by
    rw [h3]; simp only [List.mem_append, not_or]
    exact ⟨by decide, h.contentType⟩
  have hcut : formCut ['\r', '\n', '\r', '\n'] (render f ++ (asPart f).content) =
      some (('C' :: a) ++ (crlf ++ ('C' :: c)), (asPart f).content) := by
    rw [h1]
    simp only [crlf, List.append_assoc]
    rw [cut_skip _ _ _ ha]
    have step : ∀ t, formCut ['\r', '\n', '\r', '\n'] (['\r', '\n'] ++ ('C' :: c ++ t)) =
        (formCut ['\r', '\n', '\r', '\n'] ('C' :: c ++ t)).map (fun p => ('\r' :: '\n' :: p.1, p.2)) := by
      intro t
      simp [formCut, Option.map_map, Function.comp_def]
    rw [step, cut_skip _ _ _ hc]
    simp [formCut]
  have htake : (('C' :: a) ++ (crlf ++ ('C' :: c))).takeWhile (· != '\r') = 'C' :: a := by
    have : ∀ l t : Text, '\r' ∉ l → (l ++ '\r' :: t).takeWhile (· != '\r') = l := by
      intro l t hl
      induction l with
      | nil => simp
      | cons x l ih =>
        have hx : x ≠ '\r' := fun e => hl (by simp [e])
        simp [hx, ih (fun h => hl (by simp [h]))]
    exact this _ _ ha
  have hp : ['\r', '\n'].isPrefixOf (part f) = true := by simp [part, crlf]
  have hd : (part f).drop 2 = render f ++ (asPart f).content := by simp [part, crlf]
  rw [readPart, if_pos hp, hd, hcut]
  simp only [htake]
  rw [h2, read_disposition b f h]
  rfl

/-- The pieces of a form: all parts; the last one has what follows. -/
theorem pieces_parts (b : Text) (hb : '\r' ∉ b) (fs : List Field) : ∀ (f : Field) (n : Nat), (∀ x ∈ f :: fs, Plain b x) → fs.length < n →
    formPieces (['\r', '\n', '-', '-'] ++ b) n
      (part f ++ (fs.flatMap (fun f => ['\r', '\n', '-', '-'] ++ b ++ part f) ++ crlf)) =
        ((f :: fs).map part).dropLast ++ [(((f :: fs).map part).getLast (by simp)) ++ crlf] := by
  induction fs with
  | nil =>
    intro f n h hn
    cases n with
    | zero => simp at hn
    | succ n =>
      have := part_clean_end b hb f (h f (by simp))
      rw [← cut_none_iff] at this
      simp only [List.cons_append, List.nil_append] at this
      simp [formPieces, this]
  | cons g fs ih =>
    intro f n h hn
    cases n with
    | zero => simp at hn
    | succ n =>
      have hf := part_clean b f (h f (by simp))
      have hc := cut_found ('\n' :: '-' :: '-' :: b) (part f)
        (part g ++ (fs.flatMap (fun f => ['\r', '\n', '-', '-'] ++ b ++ part f) ++ crlf)) (by simp [hb]) (by simpa using hf)
      have ih := ih g n (fun x hx => h x (by simp at hx ⊢; exact .inr hx)) (by simp at hn; omega)
      simp only [List.flatMap_cons, List.append_assoc, List.cons_append, List.nil_append] at hc ih ⊢
      rw [formPieces, hc]
      simp only [ih]
      simp

/-- The same if the end is marked. -/
theorem pieces_closed (b : Text) (hb : '\r' ∉ b) (fs : List Field) : ∀ (f : Field) (n : Nat), (∀ x ∈ f :: fs, Plain b x) →
    fs.length + 1 < n →
    formPieces (['\r', '\n', '-', '-'] ++ b) n
      (part f ++ (fs.flatMap (fun f => ['\r', '\n', '-', '-'] ++ b ++ part f) ++ (crlf ++ (['-', '-'] ++ b ++ ['-', '-'])))) =
        (f :: fs).map part ++ [['-', '-']] := by
  induction fs with
  | nil =>
    intro f n h hn
    cases n with
    | zero => simp at hn
    | succ n =>
      have hf := part_clean b f (h f (by simp))
      have hc := cut_found ('\n' :: '-' :: '-' :: b) (part f) ['-', '-'] (by simp [hb]) (by simpa using hf)
      simp only [List.flatMap_nil, List.append_assoc, List.cons_append, List.nil_append, crlf] at hc ⊢
      rw [formPieces, hc]
      have hd : formCut ('\r' :: '\n' :: '-' :: '-' :: b) ['-', '-'] = none := by simp [formCut]
      cases n with
      | zero => simp at hn
      | succ n => simp [formPieces, hd]
  | cons g fs ih =>
    intro f n h hn
    cases n with
    | zero => simp at hn
    | succ n =>
      have hf := part_clean b f (h f (by simp))
      have hc := cut_found ('\n' :: '-' :: '-' :: b) (part f)
        (part g ++ (fs.flatMap (fun f => ['\r', '\n', '-', '-'] ++ b ++ part f) ++ (crlf ++ (['-', '-'] ++ b ++ ['-', '-']))))
        (by simp [hb]) (by simpa using hf)
      have ih := ih g n (fun x hx => h x (by simp at hx ⊢; exact .inr hx)) (by simp at hn; omega)
      simp only [List.flatMap_cons, List.append_assoc, List.cons_append, List.nil_append] at hc ih ⊢
      rw [formPieces, hc]
      simp only [ih]
      simp

theorem part_start (f : Field) : ∃ t, part f = '\r' :: '\n' :: t := ⟨_, rfl⟩

theorem read_parts_open (b : Text) (fs : List Field) : ∀ (f : Field), (∀ x ∈ f :: fs, Plain b x) →
    readParts (((f :: fs).map part).dropLast ++ [(((f :: fs).map part).getLast (by simp)) ++ crlf]) =
      some ((f :: fs).map asPart, false) := by
  induction fs with
  | nil =>
    intro f h
    obtain ⟨t, ht⟩ := part_start f
    have hw : withoutLineEnd (part f ++ crlf) = part f := by
      have : ['\r', '\n'].isSuffixOf (part f ++ crlf) = true := List.isSuffixOf_iff_suffix.2 (List.suffix_append _ _)
      rw [withoutLineEnd, if_pos this]
      simp [crlf, List.dropLast_append]
    have hn : ['-', '-'].isPrefixOf (part f ++ crlf) = false := by simp [ht, List.isPrefixOf]
    simp [readParts, hn, hw, read_part b f (h f (by simp))]
  | cons g fs ih =>
    intro f h
    obtain ⟨t, ht⟩ := part_start f
    have hn : ['-', '-'].isPrefixOf (part f) = false := by simp [ht, List.isPrefixOf]
    have ih := ih g (fun x hx => h x (by simp at hx ⊢; exact .inr hx))
    simp only [List.map_cons, List.dropLast_cons_cons, List.cons_append, List.getLast_cons_cons] at ih ⊢
    rw [readParts, hn]
    simp [read_part b f (h f (by simp)), ih]

theorem read_parts_closed (b : Text) (fs : List Field) (h : ∀ x ∈ fs, Plain b x) :
    readParts (fs.map part ++ [['-', '-']]) = some (fs.map asPart, true) := by
  induction fs with
  | nil => simp [readParts]
  | cons f fs ih =>
    obtain ⟨t, ht⟩ := part_start f
    have hn : ['-', '-'].isPrefixOf (part f) = false := by simp [ht, List.isPrefixOf]
    have ih := ih (fun x hx => h x (by simp [hx]))
    rw [List.map_cons, List.cons_append, readParts, hn]
    simp [read_part b f (h f (by simp)), ih]

theorem body_length (r : Reading) (b : Text) (fs : List Field) (h : ∀ f ∈ fs, f.payload ≠ .other) : fs.length + 1 ≤ (body r b fs).length + 1 ∧
    2 * fs.length ≤ (body r b fs).length := by
  have : 2 * fs.length ≤ (body r b fs).length := by
    induction fs with
    | nil => simp
    | cons f fs ih =>
      have ih := ih (fun x hx => h x (by simp [hx]))
      simp only [body] at ih ⊢
      have hp : ∃ cs p, payloadChunks r f.payload = some (cs, p) := by
        cases hf : f.payload with
        | text s => exact ⟨_, _, rfl⟩
        | file s => exact ⟨_, _, rfl⟩
        | other => exact absurd hf (h f (by simp))
      obtain ⟨cs, p, hp⟩ := hp
      simp only [iterate, hp, List.flatten_append, List.length_append, List.flatten_cons, List.length_cons]
      omega
  omega

/-- C69: the server reads exactly the fields that were given, in order, each with its name, file name and content, whatever the size of
chunks. What is missing: the end of the form is not marked (`upload_closing_violated`), and names with quotes (`upload_quote_violated`). -/
theorem upload_read_partial (r : Reading) (hr : Reads r) (b : Text) (hb : '\r' ∉ b) (fs : List Field) (hne : fs ≠ [])
    (h : ∀ f ∈ fs, Plain b f) : formRead b (body r b fs) = some (fs.map asPart, false) := by
  cases fs with
  | nil => exact absurd rfl hne
  | cons f fs =>
    have hl := (body_length r b (f :: fs) (fun x hx => (h x hx).payload)).2
    have hbody := body_parts r hr b (f :: fs) (fun x hx => (h x hx).payload)
    obtain ⟨n, hn⟩ : ∃ n, (body r b (f :: fs)).length = n + 1 := ⟨_, (Nat.succ_pred_eq_of_pos (by simp at hl; omega)).symm⟩
    have hp := pieces_parts b hb fs f n h (by simp at hl; omega)
    have hc := cut_found ('\n' :: '-' :: '-' :: b) []
      (part f ++ (fs.flatMap (fun f => ['\r', '\n', '-', '-'] ++ b ++ part f) ++ crlf)) (by simp [hb]) (by simp)
    simp only [crlf] at hbody
    rw [formRead, hbody, hn]
    simp only [List.flatMap_cons, List.append_assoc, List.cons_append, List.nil_append, crlf] at hc hp ⊢
    rw [formPieces, hc]
    simp only [hp]
    have := read_parts_open b fs f h
    simpa [crlf] using this

/-- C69: with the mark of the end after the body, the form is complete. -/
theorem upload_closed (r : Reading) (hr : Reads r) (b : Text) (hb : '\r' ∉ b) (fs : List Field) (hne : fs ≠ [])
    (h : ∀ f ∈ fs, Plain b f) : formRead b (body r b fs ++ (['-', '-'] ++ b ++ ['-', '-'])) = some (fs.map asPart, true) := by
  cases fs with
  | nil => exact absurd rfl hne
  | cons f fs =>
    have hl := (body_length r b (f :: fs) (fun x hx => (h x hx).payload)).2
    have hbody := body_parts r hr b (f :: fs) (fun x hx => (h x hx).payload)
    obtain ⟨n, hn⟩ : ∃ n, (body r b (f :: fs) ++ (['-', '-'] ++ b ++ ['-', '-'])).length = n + 1 :=
      ⟨_, (Nat.succ_pred_eq_of_pos (by simp only [List.length_append, List.length_cons]; omega)).symm⟩
    have hp := pieces_closed b hb fs f n h (by simp at hl hn; omega)
    have hc := cut_found ('\n' :: '-' :: '-' :: b) []
      (part f ++ (fs.flatMap (fun f => ['\r', '\n', '-', '-'] ++ b ++ part f) ++ (crlf ++ (['-', '-'] ++ b ++ ['-', '-']))))
      (by simp [hb]) (by simp)
    rw [formRead, hn, ← List.append_assoc ['\r', '\n'], show ['\r', '\n'] ++ body r b (f :: fs) = _ from hbody]
    simp only [List.flatMap_cons, List.append_assoc, List.cons_append, List.nil_append, crlf] at hc hp ⊢
    rw [formPieces, hc]
    simp only [hp]
    have := read_parts_closed b (f :: fs) h
    simpa using this

/-- C69 fails: the code never marks the end, so that every form it sends is incomplete. -/
theorem upload_closing_violated (r : Reading) (hr : Reads r) (b : Text) (hb : '\r' ∉ b) (fs : List Field) (hne : fs ≠ [])
    (h : ∀ f ∈ fs, Plain b f) : ¬ ∃ ps, formRead b (body r b fs) = some (ps, true) := by
  rintro ⟨ps, hp⟩
  rw [upload_read_partial r hr b hb fs hne h] at hp
  simp at hp

namespace Example

/-- A text field and a file whose content has line ends and dashes. -/
def fields : List Field := [{ name := t!"name", payload := .text t!"pkm" },
  { name := t!"content", filename := some t!"a.whl", payload := .file t!"PK\r\n--x\r\n" }]

theorem fields_plain : ∀ f ∈ fields, Plain t!"b0" f := by
  intro f hf
  simp only [fields, List.mem_cons, List.not_mem_nil, or_false] at hf
  rcases hf with rfl | rfl
  · exact ⟨by decide, by simp, by decide, by decide, by unfold NoBoundary; rw [← cut_none_iff]; decide⟩
  · exact ⟨by decide, by rintro n ⟨⟩; decide, by decide, by decide, by unfold NoBoundary; rw [← cut_none_iff]; decide⟩

end Example

example : Reads {} ∧ '\r' ∉ t!"b0" ∧ Example.fields ≠ [] ∧ (∀ f ∈ Example.fields, Plain t!"b0" f) :=
  ⟨⟨by decide, fun _ => Nat.zero_lt_succ _⟩, by decide, by decide, Example.fields_plain⟩

/-- C69 fails for names with a quote: the server reads another file name, or none. -/
theorem upload_quote_violated :
    formRead t!"b0" (body {} t!"b0" [{ name := t!"content", filename := some t!"a\"b", payload := .text t!"x" }]) = none := by
  decide +kernel

/-- A field whose file is at its end. -/
def spent (f : Field) : Field := match f.payload with
  | .file _ => { f with payload := .file [] }
  | _ => f

/-- C69 fails for repeated requests: if the answer to the first try is lost, every further try sends the file without its content. -/
theorem upload_retry_violated (r : Reading) (b : Text) (n : Nat) (fs : List Field) (h : ∀ f ∈ fs, f.payload ≠ .other) :
    bodies r b (n + 1) fs = body r b fs :: List.replicate n (body r b (fs.map spent)) := by
  have h1 : ∀ fs : List Field, (∀ f ∈ fs, f.payload ≠ .other) → (iterate r b fs).2.1 = fs.map spent := by
    intro fs
    induction fs with
    | nil => intro _; rfl
    | cons f fs ih =>
      intro h
      have ih := ih (fun x hx => h x (by simp [hx]))
      obtain ⟨a, b', c, p⟩ := f
      cases p with
      | text s => simp [iterate, payloadChunks, ih, spent]
      | file s => simp [iterate, payloadChunks, ih, spent]
      | other => exact absurd rfl (h _ List.mem_cons_self)
  have h2 : ∀ (n : Nat) (fs : List Field), (∀ f ∈ fs, f.payload ≠ .other ∧ ∀ s, f.payload = .file s → s = []) →
      bodies r b n fs = List.replicate n (body r b fs) := by
    intro n
    induction n with
    | zero => intro fs _; rfl
    | succ n ih =>
      intro fs hf
      have : (iterate r b fs).2.1 = fs := by
        rw [h1 fs (fun f hx => (hf f hx).1)]
        conv => rhs; rw [← List.map_id fs]
        apply List.map_congr_left
        intro f hx
        obtain ⟨a, b', c, p⟩ := f
        cases p with
        | file s =>
          have := (hf _ hx).2 s rfl
          simp [this, spent]
        | text s => rfl
        | other => rfl
      simp [bodies, List.replicate_succ, this, ih fs hf]
  rw [bodies, h1 fs h, h2]
  intro f hf
  obtain ⟨g, hg, rfl⟩ := List.mem_map.1 hf
  have := h g hg
  obtain ⟨a, b', c, p⟩ := g
  cases p with
  | file s => simp [spent]
  | text s => simp [spent]
  | other => exact absurd rfl this

end Upload

namespace Spec
open Upload

/-- The parts of one metadata entry: one for a text, one for each item of a list. -/
def metadataParts (e : Text × Meta.Val) : List FormPart :=
  match e.2 with
  | .nothing => []
  | .text s => [⟨fieldKey e.1, none, s⟩]
  | .list l => l.map (fun s => ⟨fieldKey e.1, none, s⟩)

/-- What the server must see (https://warehouse.pypa.io/api-reference/legacy.html): the metadata, the kind of the file, its python tag,
its digests, and the file. -/
def publishedParts (md5 sha blake : Hash) (meta_ : Meta.Data) (kind py file content : Text) : List FormPart :=
  meta_.flatMap metadataParts ++
  [⟨t!"filetype", none, kind⟩, ⟨t!"pyversion", none, py⟩, ⟨t!"md5_digest", none, md5.of content⟩,
   ⟨t!"sha256_digest", none, sha.of content⟩, ⟨t!"blake2_256_digest", none, blake.of content⟩,
   ⟨t!":action", none, t!"file_upload"⟩, ⟨t!"protocol_version", none, t!"1"⟩, ⟨t!"content", some file, content⟩]

/-- The names of wheels without build number (PEP 427). -/
def IsWheelName (file py : Text) : Prop := ∃ dist version abi platform : Text,
  file = dist ++ '-' :: (version ++ '-' :: (py ++ '-' :: (abi ++ '-' :: (platform ++ t!".whl")))) ∧
  '-' ∉ dist ∧ '-' ∉ version ∧ '-' ∉ py ∧ '-' ∉ abi ∧ '-' ∉ platform

/-- The kind and the tag that belong to a file name. -/
inductive KindOf (file : Text) : Text → Text → Prop
  | wheel (py : Text) : IsWheelName file py → KindOf file t!"bdist_wheel" py
  | sdist : ¬ t!".whl" <:+ file → KindOf file t!"sdist" t!"source"

end Spec

namespace Upload
open Spec

theorem ofChunks_eq (h : Hash) (r : Reading) (hr : Reads r) (t : Text) : h.ofChunks (chunks r.size r.avail t) = h.of t := by
  have key : ∀ (cs : List Text) (s : h.σ), cs.foldl h.update s = h.update s cs.flatten := by
    intro cs
    induction cs with
    | nil => intro s; simp [h.nil]
    | cons c cs ih => intro s; simp [ih, h.append]
  rw [Hash.ofChunks, key, (chunks_content r.size r.avail hr.1 hr.2 t).1, Hash.of]

theorem splitOn_cons' (a r : Text) (h : '-' ∉ a) : splitOn '-' (a ++ '-' :: r) = a :: splitOn '-' r := by
  induction a with
  | nil => simp [splitOn]
  | cons c a ih =>
    have hc : c ≠ '-' := fun e => h (by simp [e])
    simp [splitOn, hc, ih (fun h' => h (by simp [h']))]

theorem py_of_kind (file kind py : Text) (h : KindOf file kind py) :
    pyVersion file = some py ∧ (if isWheel file then t!"bdist_wheel" else t!"sdist") = kind := by
  cases h with
  | wheel py h =>
    obtain ⟨d, v, a, p, rfl, h1, h2, h3, h4, h5⟩ := h
    have hw : isWheel (d ++ '-' :: (v ++ '-' :: (py ++ '-' :: (a ++ '-' :: (p ++ t!".whl"))))) = true := by
      have h1 : t!".whl" <:+ d ++ '-' :: (v ++ '-' :: (py ++ '-' :: (a ++ '-' :: (p ++ t!".whl")))) := by
        refine ⟨d ++ '-' :: (v ++ '-' :: (py ++ '-' :: (a ++ '-' :: p))), by simp⟩
      simp only [isWheel, List.isSuffixOf_iff_suffix.2 h1, Bool.true_and, List.length_append, List.length_cons, decide_eq_true_eq]
      omega
    rw [pyVersion, if_pos hw, if_pos hw, splitOn_cons' _ _ h1, splitOn_cons' _ _ h2, splitOn_cons' _ _ h3]
    exact ⟨rfl, rfl⟩
  | sdist h =>
    have hw : isWheel file = false := by
      simp only [isWheel, Bool.and_eq_false_iff]
      left
      cases hs : t!".whl".isSuffixOf file with
      | false => rfl
      | true => exact absurd (List.isSuffixOf_iff_suffix.1 hs) h
    simp [pyVersion, hw]

theorem put_fresh (d : Meta.Data) (k : Text) (v : Meta.Val) (h : k ∉ Dict.keys d) : d.put k v = d ++ [(k, v)] := by
  induction d with
  | nil => rfl
  | cons e d ih =>
    obtain ⟨a, w⟩ := e
    simp only [Dict.keys, List.map_cons, List.mem_cons, not_or] at h
    have : ¬ a = k := fun e => h.1 e.symm
    simp [Dict.put, this, ih h.2]

theorem puts_fresh (f : Text → Text) (es : List (Text × Meta.Val)) : ∀ d : Meta.Data, (Dict.keys d ++ es.map (fun e => f e.1)).Nodup →
    es.foldl (fun d e => d.put (f e.1) e.2) d = d ++ es.map (fun e => (f e.1, e.2)) := by
  induction es with
  | nil => intro d _; simp
  | cons e es ih =>
    intro d h
    have h1 : f e.1 ∉ Dict.keys d := by
      rw [List.nodup_append] at h
      exact fun hc => h.2.2 _ hc (f e.1) (by simp) rfl
    rw [List.foldl_cons, put_fresh d _ _ h1, ih]
    · simp
    · simpa [Dict.keys] using h

/-- The keys that `publish` itself sets. -/
def ownKeys : List Text :=
  [t!"filetype", t!"pyversion", t!"md5_digest", t!"sha256_digest", t!"blake2_256_digest", t!":action", t!"protocol_version"]

/-- C69: the server that gets an upload reads the metadata of the package, the file with its name and content, the digests of this
content and the python tag of the file. What is missing: wheels with a build number (`publish_build_violated`), and what
`upload_read_partial` misses. -/
theorem publish_partial (md5 sha blake : Hash) (r r' : Reading) (hr : Reads r) (hr' : Reads r') (b : Text) (hb : '\r' ∉ b)
    (meta_ : Meta.Data) (file kind py content : Text) (hk : KindOf file kind py) (hf : file ≠ [])
    (hn : ∀ e ∈ meta_, e.2 ≠ .nothing) (hd : (meta_.map (fun e => fieldKey e.1)).Nodup) (ho : ∀ e ∈ meta_, fieldKey e.1 ∉ ownKeys)
    (hp : ∀ p ∈ publishedParts md5 sha blake meta_ kind py file content,
      (∀ c ∈ p.name, c ≠ '"' ∧ c ≠ '\r') ∧ (∀ n, p.filename = some n → ∀ c ∈ n, c ≠ '"' ∧ c ≠ '\r') ∧ NoBoundary b p.content) :
    ∃ fs, publishFields md5 sha blake r meta_ file content = some fs ∧
      formRead b (body r' b fs) = some (publishedParts md5 sha blake meta_ kind py file content, false) := by
  obtain ⟨h1, h2⟩ := py_of_kind file kind py hk
  refine ⟨_, by rw [publishFields, h1, Option.map_some], ?_⟩
  have hdata : ∀ own : List (Text × Meta.Val), own.map (·.1) = ownKeys →
      formData meta_ own = meta_.map (fun e => (fieldKey e.1, e.2)) ++ own := by
    intro own hown
    have hown' : (own.map (·.1)).Nodup := by rw [hown]; decide
    rw [formData, puts_fresh fieldKey meta_ [] (by simpa [Dict.keys] using hd)]
    have := puts_fresh id own ([] ++ meta_.map (fun e => (fieldKey e.1, e.2))) ?_
    · simpa using this
    · simp only [List.nil_append, Dict.keys, List.map_map, id]
      rw [List.nodup_append]
      refine ⟨by simpa [Function.comp_def] using hd, hown', ?_⟩
      intro a ha c hc e
      obtain ⟨x, hx, rfl⟩ := List.mem_map.1 ha
      subst e
      exact ho x hx (by rw [← hown]; exact hc)
  rw [hdata _ (by rfl)]
  have hparts : ∀ fs : List Field, fs = (meta_.map (fun e => (fieldKey e.1, e.2)) ++
        ownFields file py md5 sha blake (chunks r.size r.avail content)).flatMap entryFields ++
      [{ name := t!"content", filename := some file, payload := .file content }] →
      fs.map asPart = publishedParts md5 sha blake meta_ kind py file content ∧
      ∀ f ∈ fs, f.payload ≠ .other ∧ f.contentType = t!"application/octet-stream" ∧ f.filename = (asPart f).filename := by
    rintro fs rfl
    have hm : ∀ meta_ : Meta.Data, (∀ e ∈ meta_, e.2 ≠ .nothing) →
        ((meta_.map (fun e => (fieldKey e.1, e.2))).flatMap entryFields).map asPart = meta_.flatMap metadataParts ∧
        ∀ f ∈ (meta_.map (fun e => (fieldKey e.1, e.2))).flatMap entryFields,
          f.payload ≠ .other ∧ f.contentType = t!"application/octet-stream" ∧ f.filename = (asPart f).filename := by
      intro m
      induction m with
      | nil => intro _; simp
      | cons e m ih =>
        intro h
        obtain ⟨ih1, ih2⟩ := ih (fun x hx => h x (by simp [hx]))
        obtain ⟨k, v⟩ := e
        have hv := h (k, v) (by simp)
        simp only [List.map_cons, List.flatMap_cons, List.map_append, ih1, List.forall_mem_append]
        cases v with
        | nothing => exact absurd rfl hv
        | text s => simpa [entryFields, metadataParts, asPart] using ih2
        | list l => refine ⟨by simp [entryFields, metadataParts, asPart], by simp [entryFields, asPart], ih2⟩
    obtain ⟨hm1, hm2⟩ := hm meta_ hn
    simp only [List.flatMap_append, List.map_append, List.forall_mem_append, hm1]
    refine ⟨?_, ⟨hm2, ?_⟩, ?_⟩
    · simp only [ownFields, List.flatMap_cons, List.flatMap_nil, entryFields, publishedParts, ofChunks_eq _ r hr, h2]
      simp [asPart, hf]
    · simp only [ownFields, List.flatMap_cons, List.flatMap_nil, entryFields]
      simp [asPart]
    · simp [asPart, hf]
  obtain ⟨hp1, hp2⟩ := hparts _ rfl
  rw [upload_read_partial r' hr' b hb _ (by simp) ?_, hp1]
  intro f hfm
  have hpf := hp (asPart f) (by rw [← hp1]; exact List.mem_map_of_mem hfm)
  obtain ⟨q1, q2, q3⟩ := hp2 f hfm
  refine ⟨hpf.1, ?_, by rw [q2]; decide, q1, hpf.2.2⟩
  intro n hn' c hc
  exact hpf.2.1 n (by rw [← q3]; exact hn') c hc

/-- C69 fails for wheels with a build number (PEP 427): it is sent as the python tag. -/
theorem publish_build_violated (dist version build py abi platform : Text) (h1 : '-' ∉ dist) (h2 : '-' ∉ version) (h3 : '-' ∉ build) :
    pyVersion (dist ++ '-' :: (version ++ '-' :: (build ++ '-' :: (py ++ '-' :: (abi ++ '-' :: (platform ++ t!".whl")))))) =
      some build := by
  have hw : isWheel (dist ++ '-' :: (version ++ '-' :: (build ++ '-' :: (py ++ '-' :: (abi ++ '-' :: (platform ++ t!".whl")))))) = true := by
    have h1 : t!".whl" <:+ dist ++ '-' :: (version ++ '-' :: (build ++ '-' :: (py ++ '-' :: (abi ++ '-' :: (platform ++ t!".whl"))))) :=
      ⟨dist ++ '-' :: (version ++ '-' :: (build ++ '-' :: (py ++ '-' :: (abi ++ '-' :: platform)))), by simp⟩
    simp only [isWheel, List.isSuffixOf_iff_suffix.2 h1, Bool.true_and, List.length_append, List.length_cons, decide_eq_true_eq]
    omega
  rw [pyVersion, if_pos hw, splitOn_cons' _ _ h1, splitOn_cons' _ _ h2, splitOn_cons' _ _ h3]
  rfl

namespace Example

/-- A hash that counts. -/
def count : Hash := ⟨Nat, 0, fun n t => n + t.length, fun n => List.replicate n 'f', by simp, by simp [Nat.add_assoc]⟩

def meta_ : Meta.Data := [(t!"Name", .text t!"demo"), (t!"Requires-Dist", .list [t!"a", t!"b >=1"])]

def file : Text := t!"demo-1.0-py3-none-any.whl"

end Example

example : KindOf Example.file t!"bdist_wheel" t!"py3" ∧ (∀ e ∈ Example.meta_, e.2 ≠ .nothing) ∧
    (Example.meta_.map (fun e => fieldKey e.1)).Nodup ∧ (∀ e ∈ Example.meta_, fieldKey e.1 ∉ ownKeys) ∧
    (∀ p ∈ publishedParts Example.count Example.count Example.count Example.meta_ t!"bdist_wheel" t!"py3" Example.file t!"PK\r\n--x\r\n",
      (∀ c ∈ p.name, c ≠ '"' ∧ c ≠ '\r') ∧ (∀ n, p.filename = some n → ∀ c ∈ n, c ≠ '"' ∧ c ≠ '\r') ∧ NoBoundary t!"b0" p.content) := by
  refine ⟨.wheel _ ⟨t!"demo", t!"1.0", t!"none", t!"any", rfl, by decide, by decide, by decide, by decide, by decide⟩, by decide,
    by decide, by decide, ?_⟩
  intro p hp
  have h : ∀ p ∈ publishedParts Example.count Example.count Example.count Example.meta_ t!"bdist_wheel" t!"py3" Example.file
      t!"PK\r\n--x\r\n", (∀ c ∈ p.name, c ≠ '"' ∧ c ≠ '\r') ∧ (∀ n ∈ p.filename.toList, ∀ c ∈ n, c ≠ '"' ∧ c ≠ '\r') ∧
        formCut (['\r', '\n', '-', '-'] ++ t!"b0") (['\r', '\n'] ++ p.content) = none := by decide +kernel
  obtain ⟨a, b, c⟩ := h p hp
  exact ⟨a, fun n hn => b n (by simp [hn]), (cut_none_iff _ _).1 c⟩

end Upload
end Pkm
