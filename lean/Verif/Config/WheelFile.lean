import Verif.Dict
import Verif.Text
/-
Model of the files with one `key: value` on each line (`WHEEL`, `pyvenv.cfg`), pkm/src/pkm/config/configfiles.py 81-93.
`os.linesep` is a newline, as on POSIX. Line breaks are those of ASCII.
-/
namespace Pkm
namespace Config

/-- The ASCII characters at which `splitlines` breaks a text. -/
def isBreak (c : Char) : Bool := (10 ≤ c.toNat && c.toNat ≤ 13) || (28 ≤ c.toNat && c.toNat ≤ 30)

/-- A line of the file (configfiles.py 87). -/
def writeLine (p : Text × Text) : Text := p.1 ++ ':' :: ' ' :: p.2

/-- `WheelFileConfigIO.write` (configfiles.py 86-87): the lines, joined by the line separator. -/
def writeWheel : List (Text × Text) → Text
  | [] => []
  | [p] => writeLine p
  | p :: q :: l => writeLine p ++ '\n' :: writeWheel (q :: l)

/-- Splits at the characters with a property (`splitlines`, configfiles.py 91, up to empty lines, which are dropped). -/
def splitAt (f : Char → Bool) : Text → List Text
  | [] => [[]]
  | c :: s =>
    if f c then [] :: splitAt f s
    else match splitAt f s with
      | [] => [[c]]
      | w :: ws => (c :: w) :: ws

/-- `s.lstrip()`. -/
def lstrip (s : Text) : Text := s.dropWhile isSpace

/-- `s.strip()` (configfiles.py 91). -/
def stripText (s : Text) : Text := (lstrip (lstrip s).reverse).reverse

/-- `seperator_rx.split(kv)` (configfiles.py 90, 92) of a stripped line: the parts between the colons without the blanks
around the colons. -/
def splitLine (s : Text) : List Text := (splitAt (· == ':') s).map stripText

/-- The pairs of the lines, later ones taking the place of earlier ones (configfiles.py 93); `none` for the `ValueError`
of a line without exactly one colon. -/
def readLines : List Text → Dict Text Text → Option (Dict Text Text)
  | [], d => some d
  | l :: ls, d =>
    match splitLine l with
    | [k, v] => readLines ls (d.put k v)
    | _ => none

/-- `WheelFileConfigIO.read` (configfiles.py 89-93). -/
def readWheel (s : Text) : Option (Dict Text Text) :=
  readLines (((splitAt isBreak s).map stripText).filter (fun l => !l.isEmpty)) []

/-! ### Reading back -/

/-- Texts on one line, without colon, that neither start nor end with a blank. -/
def Tidy (s : Text) : Prop := (∀ c ∈ s, isBreak c = false ∧ c ≠ ':') ∧
  (∀ c, s.head? = some c → isSpace c = false) ∧ (∀ c, s.getLast? = some c → isSpace c = false)

theorem lstrip_id (s : Text) (h : ∀ c, s.head? = some c → isSpace c = false) : lstrip s = s := by
  cases s with
  | nil => rfl
  | cons c s => simp [lstrip, List.dropWhile, h c rfl]

theorem strip_id (s : Text) (h : ∀ c, s.head? = some c → isSpace c = false)
    (h' : ∀ c, s.getLast? = some c → isSpace c = false) : stripText s = s := by
  unfold stripText
  rw [lstrip_id s h, lstrip_id]
  · simp
  · simpa [List.head?_reverse] using h'

theorem splitAt_none (f : Char → Bool) (s : Text) (h : ∀ c ∈ s, f c = false) : splitAt f s = [s] := by
  induction s with
  | nil => rfl
  | cons c s ih => simp [splitAt, h c (by simp), ih (fun d hd => h d (by simp [hd]))]

theorem splitAt_append (f : Char → Bool) (a : Text) (c : Char) (b : Text) (h : ∀ d ∈ a, f d = false) (hc : f c = true) :
    splitAt f (a ++ c :: b) = a :: splitAt f b := by
  induction a with
  | nil => simp [splitAt, hc]
  | cons d a ih => simp [splitAt, h d (by simp), ih (fun e he => h e (by simp [he]))]

theorem strip_space (s : Text) (h : Tidy s) : stripText (' ' :: s) = s := by
  have : lstrip (' ' :: s) = lstrip s := by
    have : isSpace ' ' = true := by decide
    simp [lstrip, List.dropWhile, this]
  have e := strip_id s h.2.1 h.2.2
  unfold stripText at *
  rw [this]
  exact e

/-- A line and the line as it is stripped. -/
theorem strip_line (k v : Text) (hk : Tidy k) (hv : Tidy v) :
    stripText (writeLine (k, v)) = (if v = [] then k ++ [':'] else k ++ ':' :: ' ' :: v) := by
  have hcol : isSpace ':' = false := by decide
  have hhead : ∀ (t : Text), ∀ c, (k ++ ':' :: t).head? = some c → isSpace c = false := by
    intro t c hc
    cases k with
    | nil => simp at hc; subst hc; exact hcol
    | cons a k => simp at hc; subst hc; exact hk.2.1 a rfl
  by_cases h : v = []
  · subst h
    simp only [writeLine, if_true]
    unfold stripText
    rw [lstrip_id _ (hhead _)]
    have hsp : isSpace ' ' = true := by decide
    simp [lstrip, List.dropWhile, hsp, hcol]
  · simp only [h, if_false]
    refine strip_id _ (hhead _) ?_
    intro c hc
    simp only [writeLine] at hc
    rw [List.getLast?_append] at hc
    have : (':' :: ' ' :: v).getLast? = v.getLast? := by
      cases v with
      | nil => exact absurd rfl h
      | cons a v => simp [List.getLast?_cons_cons]
    rw [this] at hc
    cases hl : v.getLast? with
    | none => simp at hl; exact absurd hl h
    | some d => rw [hl] at hc; simp at hc; subst hc; exact hv.2.2 d hl

theorem split_line (k v : Text) (hk : Tidy k) (hv : Tidy v) : splitLine (stripText (writeLine (k, v))) = [k, v] := by
  rw [strip_line k v hk hv]
  have hkc : ∀ c ∈ k, (c == ':') = false := fun c hc => by simpa using (hk.1 c hc).2
  unfold splitLine
  by_cases h : v = []
  · subst h
    simp only [if_true]
    rw [splitAt_append _ k ':' [] hkc (by simp)]
    have e : stripText [] = [] := rfl
    simp [splitAt, strip_id k hk.2.1 hk.2.2, e]
  · simp only [h, if_false]
    rw [splitAt_append _ k ':' (' ' :: v) hkc (by simp), splitAt_none]
    · simp [strip_id k hk.2.1 hk.2.2, strip_space v hv]
    · intro c hc
      simp at hc
      rcases hc with rfl | hc
      · decide
      · simpa using (hv.1 c hc).2

theorem line_no_break (k v : Text) (hk : Tidy k) (hv : Tidy v) : ∀ c ∈ writeLine (k, v), isBreak c = false := by
  intro c hc
  simp [writeLine] at hc
  rcases hc with hc | rfl | rfl | hc
  · exact (hk.1 c hc).1
  · decide
  · decide
  · exact (hv.1 c hc).1

theorem strip_line_ne (k v : Text) (hk : Tidy k) (hv : Tidy v) : (stripText (writeLine (k, v))).isEmpty = false := by
  rw [strip_line k v hk hv]
  split <;> simp

theorem lines_write (p : Text × Text) (l : List (Text × Text)) (h : ∀ q ∈ p :: l, Tidy q.1 ∧ Tidy q.2) :
    splitAt isBreak (writeWheel (p :: l)) = (p :: l).map writeLine := by
  induction l generalizing p with
  | nil => simp [writeWheel, splitAt_none _ _ (line_no_break p.1 p.2 (h p (by simp)).1 (h p (by simp)).2)]
  | cons q l ih =>
    rw [writeWheel, splitAt_append _ _ _ _ (line_no_break p.1 p.2 (h p (by simp)).1 (h p (by simp)).2) (by decide),
      ih q (fun x hx => h x (by simp at hx ⊢; exact Or.inr hx))]
    rfl

theorem put_new (d : Dict Text Text) (k v : Text) (h : k ∉ d.map (·.1)) : d.put k v = d ++ [(k, v)] := by
  induction d with
  | nil => rfl
  | cons e d ih =>
    obtain ⟨a, w⟩ := e
    have : ¬ a = k := by rintro rfl; simp at h
    simp [Dict.put, this, ih (by simp at h ⊢; exact h.2)]

theorem readLines_write (l : List (Text × Text)) : ∀ d : Dict Text Text, (∀ q ∈ l, Tidy q.1 ∧ Tidy q.2) →
    ((d ++ l).map (·.1)).Nodup → readLines ((l.map writeLine).map stripText) d = some (d ++ l) := by
  induction l with
  | nil => intro d _ _; simp [readLines]
  | cons p l ih =>
    intro d h hn
    obtain ⟨k, v⟩ := p
    have hp := h (k, v) (by simp)
    simp only [List.map_cons, readLines, split_line k v hp.1 hp.2]
    have hk : k ∉ d.map (·.1) := by
      rw [List.map_append, List.nodup_append] at hn
      exact fun hm => hn.2.2 k hm k (by simp) rfl
    rw [put_new d k v hk, ih _ (fun q hq => h q (by simp [hq])) (by simpa using hn)]
    simp

/-- C60: the data written to a `WHEEL` or `pyvenv.cfg` file are read back from it. Proved for keys and values on one line,
without colon and without blanks around them; the excluded cases fail (below). -/
theorem wheel_file_round_trip_partial (d : List (Text × Text)) (h : ∀ p ∈ d, Tidy p.1 ∧ Tidy p.2)
    (hn : (d.map (·.1)).Nodup) : readWheel (writeWheel d) = some d := by
  cases d with
  | nil => decide
  | cons p l =>
    unfold readWheel
    rw [lines_write p l h, List.filter_eq_self.2]
    · simpa using readLines_write (p :: l) [] h (by simpa using hn)
    · intro x hx
      simp only [List.mem_map] at hx
      obtain ⟨_, ⟨q, hq, rfl⟩, rfl⟩ := hx
      have := h q hq
      simp [strip_line_ne q.1 q.2 this.1 this.2]

example : readWheel (writeWheel [("Wheel-Version".toList, "1.0".toList), ("Generator".toList, [])]) =
    some [("Wheel-Version".toList, "1.0".toList), ("Generator".toList, [])] := by decide
example : Tidy "Wheel-Version".toList ∧ Tidy ([] : Text) := by
  refine ⟨⟨by decide, ?_, ?_⟩, by simp, by simp, by simp⟩ <;> (intro c hc; simp at hc; subst hc; decide)

/-- C60 fails for values with a colon: the file that is written cannot be read. -/
theorem wheel_file_colon_violated : readWheel (writeWheel [("home".toList, "C:/python".toList)]) = none := by decide

/-- C60 fails for the `pyvenv.cfg` files that Python makes: they cannot be read. -/
theorem pyvenv_of_python_violated : readWheel "home = /usr/bin\nversion = 3.9".toList = none := by decide

/-- C60: a `WHEEL` file with several tags, each on its line, keeps only the last one. -/
theorem wheel_file_repeated_key_violated :
    readWheel "Tag: py2-none-any\nTag: py3-none-any".toList = some [("Tag".toList, "py3-none-any".toList)] := by decide

/-- C60 fails for the `pyvenv.cfg` of a new environment: Python takes its lines as `key = value`, and no line that is
written has a `=`, whatever the data, so that `include-system-site-packages` stays unset. -/
theorem pyvenv_not_for_python_violated (d : List (Text × Text)) (h : ∀ p ∈ d, '=' ∉ p.1 ∧ '=' ∉ p.2) :
    ∀ l ∈ splitAt isBreak (writeWheel d), '=' ∉ l := by
  have hw : '=' ∉ writeWheel d := by
    induction d with
    | nil => simp [writeWheel]
    | cons p d ih =>
      have hp := h p (by simp)
      cases d with
      | nil => simp [writeWheel, writeLine, hp.1, hp.2]
      | cons q d =>
        have := ih (fun x hx => h x (by simp at hx ⊢; exact Or.inr hx))
        simp [writeWheel, writeLine, hp.1, hp.2, this]
  have key : ∀ s : Text, '=' ∉ s → ∀ l ∈ splitAt isBreak s, '=' ∉ l := by
    intro s
    induction s with
    | nil => simp [splitAt]
    | cons c s ih =>
      intro hs
      simp at hs
      have i := ih hs.2
      simp only [splitAt]
      split
      · intro l hl
        simp at hl
        rcases hl with rfl | hl
        · simp
        · exact i l hl
      · cases hsp : splitAt isBreak s with
        | nil => simp; exact fun e => hs.1 e
        | cons w ws =>
          rw [hsp] at i
          intro l hl
          simp at hl
          rcases hl with rfl | hl
          · have := i w (by simp)
            simp [this]; exact fun e => hs.1 e
          · exact i l (by simp [hl])
  exact key _ hw

example : ∀ p ∈ [("home".toList, "/usr/bin".toList), ("include-system-site-packages".toList, "false".toList)],
    '=' ∉ p.1 ∧ '=' ∉ p.2 := by decide

end Config
end Pkm
