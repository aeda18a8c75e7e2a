import Verif.Tags.Lemmas
/- The ABIs of an interpreter and their order. -/
set_option linter.unusedVariables false
set_option linter.unusedSimpArgs false
namespace Pkm.Tags

theorem isCPython_iff (s : Sys) : IsCPython s ↔ shortName s.implName = t!"cp" := by
  unfold IsCPython shortName
  constructor
  · rintro (h | h) <;> (rw [h]; decide)
  · intro h
    split at h
    · exact absurd h (by decide)
    split at h
    · left; assumption
    split at h
    · exact absurd h (by decide)
    split at h
    · exact absurd h (by decide)
    split at h
    · exact absurd h (by decide)
    · right; exact h

theorem isDebug_iff (s : Sys) : IsDebug s ↔ debugBuild s = true := by
  unfold IsDebug debugBuild
  cases s.pyDebug with
  | none => simp
  | some b => cases b <;> simp

theorem malloc_cases (s : Sys) :
    (¬ NotNewer (3, 8) s.version ∧ s.pymalloc ≠ some false ∧ mallocLetter s = ['m']) ∨
    ((NotNewer (3, 8) s.version ∨ s.pymalloc = some false) ∧ mallocLetter s = []) := by
  unfold mallocLetter
  cases hv : verLt s.version (3, 8) with
  | false => right; exact ⟨.inl ((verLt_false _ _).mp hv), by simp⟩
  | true =>
    have := (verLt_iff _ _).mp hv
    cases hp : s.pymalloc with
    | none => left; simp [this]
    | some b => cases b <;> simp [this]

/-- The build uses four-byte unicode. -/
theorem unicode_cases (s : Sys) :
    (¬ NotNewer (3, 3) s.version ∧ (s.unicodeSize = some 4 ∨ (s.unicodeSize = none ∧ s.wideUnicode = true))
      ∧ unicodeLetter s = ['u']) ∨
    ((NotNewer (3, 3) s.version ∨ ¬ (s.unicodeSize = some 4 ∨ (s.unicodeSize = none ∧ s.wideUnicode = true)))
      ∧ unicodeLetter s = []) := by
  unfold unicodeLetter
  cases hv : verLt s.version (3, 3) with
  | false => right; exact ⟨.inl ((verLt_false _ _).mp hv), by simp⟩
  | true =>
    have := (verLt_iff _ _).mp hv
    cases hp : s.unicodeSize with
    | none => cases hw : s.wideUnicode <;> simp [this]
    | some n =>
      by_cases h : n = 4
      · left; simp [this, h]
      · right; simp [this, h]

/-- The text of the interpreter's own ABI. -/
def nativeText (s : Sys) : Text :=
  t!"cp" ++ verDigits s.version ++ (if debugBuild s then ['d'] else []) ++ mallocLetter s ++ unicodeLetter s

theorem native_iff (s : Sys) (abi : Text) : NativeAbi s abi ↔ abi = nativeText s := by
  constructor
  · rintro ⟨d, m, u, e, hd, hm, hu⟩
    have h1 : d = if debugBuild s then ['d'] else [] := by
      rcases hd with ⟨h, e⟩ | ⟨h, e⟩ <;> rw [isDebug_iff] at h <;> simp [h, e]
    have h2 : m = mallocLetter s := by
      rcases hm with ⟨a, b, e⟩ | ⟨a, e⟩ <;> rcases malloc_cases s with ⟨a', b', e'⟩ | ⟨a', e'⟩ <;> rw [e, e']
      · exact absurd (a'.resolve_left a) b
      · exact absurd (a.resolve_left a') b'
    have h3 : u = unicodeLetter s := by
      rcases hu with ⟨a, b, e⟩ | ⟨a, e⟩ <;> rcases unicode_cases s with ⟨a', b', e'⟩ | ⟨a', e'⟩ <;> rw [e, e']
      · exact absurd b (a'.resolve_left a)
      · exact absurd b' (a.resolve_left a')
    rw [e, h1, h2, h3]
    simp [nativeText, verDigits]
  · intro e
    refine ⟨if debugBuild s then ['d'] else [], mallocLetter s, unicodeLetter s, ?_, ?_, malloc_cases s, unicode_cases s⟩
    · rw [e]; simp [nativeText, verDigits]
    · rw [isDebug_iff]
      cases debugBuild s <;> simp

/-- The text of the ABI without letters. -/
def baseText (s : Sys) : Text := t!"cp" ++ verDigits s.version

theorem cpythonAbis_eq (s : Sys) : cpythonAbis s =
    if verLt s.version (3, 8) then [nativeText s]
    else if debugBuild s then [nativeText s, baseText s] else [nativeText s] := by
  rfl

theorem native_ne_base (s : Sys) (h : debugBuild s = true) : baseText s ≠ nativeText s := by
  intro e
  have := congrArg List.length e
  simp [baseText, nativeText, h] at this

theorem abi_ne (s : Sys) : t!"none" ≠ nativeText s ∧ t!"abi3" ≠ nativeText s ∧
    t!"none" ≠ baseText s ∧ t!"abi3" ≠ baseText s := by
  simp [nativeText, baseText]

theorem notNewer_trans {a b c : Nat × Nat} (h1 : NotNewer a b) (h2 : NotNewer b c) : NotNewer a c := by
  unfold NotNewer at *; omega

open Classical in
/-- The place of an ABI that fits with rank `n` in the list of the scorer, on CPython. -/
theorem cp_index (s : Sys) (hc : IsCPython s) (abi : Text) (n : Nat) (h : AbiFits s abi n) :
    indexOf (hostAbis s).reverse abi =
      some (if n < 3 then n else if NotNewer (3, 2) s.version then
        (if NotNewer (3, 8) s.version ∧ IsDebug s then 3 else 2) else 1) := by
  have hs := (isCPython_iff s).mp hc
  obtain ⟨x1, x2, x3, x4⟩ := abi_ne s
  unfold hostAbis
  rw [if_pos hs, cpythonAbis_eq]
  have h32 : abi3Applies s.version = true ↔ NotNewer (3, 2) s.version := by
    simp [abi3Applies, verLt_false]
  have hd := isDebug_iff s
  have h382 : NotNewer (3, 8) s.version → NotNewer (3, 2) s.version := fun h => notNewer_trans (by unfold NotNewer; omega) h
  match n, h with
  | 0, h =>
    simp only [AbiFits] at h
    subst h
    simp [indexOf]
  | 1, h =>
    simp only [AbiFits] at h
    obtain ⟨_, h1, h2⟩ := h
    subst h2
    have : abi3Applies s.version = true := h32.mpr h1
    simp [indexOf, this]
  | 2, h =>
    simp only [AbiFits] at h
    obtain ⟨_, h1, h2, h3⟩ := h
    have e : abi = baseText s := by rw [h3]; simp [baseText, verDigits]
    have a3 : abi3Applies s.version = true := h32.mpr (h382 h1)
    have v8 : verLt s.version (3, 8) = false := (verLt_false _ _).mpr h1
    have db := hd.mp h2
    have y3 : ¬ ['n','o','n','e'] = baseText s := x3
    have y4 : ¬ ['a','b','i','3'] = baseText s := x4
    simp [indexOf, a3, v8, db, e, y3, y4]
  | 3, h =>
    simp only [AbiFits] at h
    rcases h with ⟨_, h⟩ | ⟨h, _⟩
    · rw [native_iff] at h
      subst h
      have y1 : ¬ ['n','o','n','e'] = nativeText s := x1
      have y2 : ¬ ['a','b','i','3'] = nativeText s := x2
      by_cases v2 : NotNewer (3, 2) s.version
      · have a3 : abi3Applies s.version = true := h32.mpr v2
        by_cases v8 : NotNewer (3, 8) s.version
        · have v8' : verLt s.version (3, 8) = false := (verLt_false _ _).mpr v8
          by_cases db : IsDebug s
          · have db' := hd.mp db
            have y5 := native_ne_base s db'
            simp [indexOf, a3, v8', v2, v8, db, db', y1, y2, y5]
          · have db' : debugBuild s = false := by
              rw [hd] at db; simpa using db
            simp [indexOf, a3, v8', v2, v8, db, db', y1, y2]
        · have v8' : verLt s.version (3, 8) = true := (verLt_iff _ _).mpr v8
          simp [indexOf, a3, v8', v2, v8, y1, y2]
      · have a3 : abi3Applies s.version = false := by
          rw [← Bool.not_eq_true, h32]; exact v2
        have v8 : ¬ NotNewer (3, 8) s.version := fun h => v2 (h382 h)
        have v8' : verLt s.version (3, 8) = true := (verLt_iff _ _).mpr v8
        simp [indexOf, a3, v8', v2, y1]
    · exact absurd hc h
  | n + 4, h => simp [AbiFits] at h

/-- The same for other implementations. -/
theorem generic_index (s : Sys) (hc : ¬ IsCPython s) (abi : Text) (n : Nat) (h : AbiFits s abi n) :
    indexOf (hostAbis s).reverse abi = some (if abi = t!"none" then 0 else 1) ∧ (n = 0 → abi = t!"none") := by
  have hs : ¬ shortName s.implName = t!"cp" := fun e => hc ((isCPython_iff s).mpr e)
  unfold hostAbis
  rw [if_neg hs]
  match n, h with
  | 0, h =>
    simp only [AbiFits] at h
    subst h
    simp [indexOf]
  | 1, h => exact absurd h.1 hc
  | 2, h => exact absurd h.1 hc
  | 3, h =>
    simp only [AbiFits] at h
    rcases h with ⟨h, _⟩ | ⟨_, so, e1, e2, e3⟩
    · exact absurd h hc
    · refine ⟨?_, fun h => absurd h (by omega)⟩
      cases so with
      | nil => exact absurd rfl e2
      | cons x xs =>
        by_cases hn : abi = t!"none"
        · subst hn; simp [genericAbis, e1, indexOf]
        · have y : ¬ ['n','o','n','e'] = abi := fun e => hn e.symm
          rw [if_neg hn]
          simp only [genericAbis, e1, List.isEmpty_cons, Bool.false_eq_true, if_false, ← e3]
          simp [indexOf, y]
  | n + 4, h => simp [AbiFits] at h

/-- A text in the list of the scorer is an ABI the interpreter supports. -/
theorem abi_supported (s : Sys) (abi : Text) : abi ∈ hostAbis s → SupportsAbi s abi := by
  intro h
  unfold hostAbis at h
  rw [List.mem_append] at h
  rcases h with h | h
  · split at h
    · rename_i hs
      have hc := (isCPython_iff s).mpr hs
      rw [List.mem_append, cpythonAbis_eq] at h
      rcases h with h | h
      · split at h
        · simp only [List.mem_singleton] at h
          exact ⟨3, .inl ⟨hc, (native_iff s abi).mpr h⟩⟩
        · rename_i hv
          split at h
          · rename_i hd
            simp only [List.mem_cons, List.not_mem_nil, or_false] at h
            rcases h with h | h
            · exact ⟨3, .inl ⟨hc, (native_iff s abi).mpr h⟩⟩
            · refine ⟨2, hc, ?_, (isDebug_iff s).mpr hd, ?_⟩
              · exact (verLt_false _ _).mp (by simpa using hv)
              · rw [h]; simp [baseText, verDigits]
          · simp only [List.mem_singleton] at h
            exact ⟨3, .inl ⟨hc, (native_iff s abi).mpr h⟩⟩
      · split at h
        · rename_i ha
          simp only [List.mem_singleton] at h
          refine ⟨1, hc, ?_, h⟩
          simpa [abi3Applies, verLt_false] using ha
        · cases h
    · rename_i hs
      have hc : ¬ IsCPython s := fun e => hs ((isCPython_iff s).mp e)
      unfold genericAbis at h
      split at h
      · rename_i so e
        split at h
        · cases h
        · rename_i hne
          simp only [List.mem_singleton] at h
          exact ⟨3, .inr ⟨hc, so, e, by simpa using hne, h⟩⟩
      · cases h
  · simp only [List.mem_singleton] at h
    exact ⟨0, h⟩

theorem abi_iff (s : Sys) (abi : Text) :
    (indexOf (hostAbis s).reverse abi).isSome = true ↔ SupportsAbi s abi := by
  constructor
  · intro h
    rw [indexOf_mem, List.mem_reverse] at h
    exact abi_supported s abi h
  · rintro ⟨n, h⟩
    by_cases hc : IsCPython s
    · rw [cp_index s hc abi n h]; rfl
    · rw [(generic_index s hc abi n h).1]; rfl

open Classical in
/-- A better fitting ABI is later in the list. -/
theorem abi_mono (s : Sys) (a b : Text) (n m : Nat) (ha : AbiFits s a n) (hb : AbiFits s b m) (hlt : n < m)
    (hne : a ≠ b) :
    ∃ i j, indexOf (hostAbis s).reverse a = some i ∧ indexOf (hostAbis s).reverse b = some j ∧ i < j := by
  by_cases hc : IsCPython s
  · refine ⟨_, _, cp_index s hc a n ha, cp_index s hc b m hb, ?_⟩
    have hm : m ≤ 3 := by
      match m, hb with
      | 0, _ => omega
      | 1, _ => omega
      | 2, _ => omega
      | 3, _ => omega
      | m + 4, h => simp [AbiFits] at h
    have hn : n < 3 := by omega
    rw [if_pos hn]
    by_cases h3 : m < 3
    · rw [if_pos h3]; exact hlt
    · rw [if_neg h3]
      have f1 : n = 1 → NotNewer (3, 2) s.version := by rintro rfl; exact ha.2.1
      have f2 : n = 2 → NotNewer (3, 8) s.version ∧ IsDebug s := by rintro rfl; exact ⟨ha.2.1, ha.2.2.1⟩
      have f3 : NotNewer (3, 8) s.version → NotNewer (3, 2) s.version := fun h => notNewer_trans (by unfold NotNewer; omega) h
      split
      · split
        · omega
        · rename_i h8
          have : n ≠ 2 := fun e => h8 (f2 e)
          omega
      · rename_i h2
        have : n ≠ 1 := fun e => h2 (f1 e)
        have : n ≠ 2 := fun e => h2 (f3 (f2 e).1)
        omega
  · obtain ⟨e1, h1⟩ := generic_index s hc a n ha
    obtain ⟨e2, h2⟩ := generic_index s hc b m hb
    refine ⟨_, _, e1, e2, ?_⟩
    have hn : n = 0 := by
      match n, m, ha, hb with
      | 0, _, _, _ => rfl
      | 1, _, h, _ => exact absurd h.1 hc
      | 2, _, h, _ => exact absurd h.1 hc
      | n + 3, 0, _, _ => omega
      | n + 3, 1, _, h => omega
      | n + 3, 2, _, h => omega
      | n + 3, 3, _, h => omega
      | n + 3, m + 4, _, h => simp [AbiFits] at h
    have ea := h1 hn
    rw [if_pos ea, if_neg (fun e => hne (ea.trans e.symm))]
    omega

end Pkm.Tags
