import Verif.Toml.Inline
set_option linter.unusedVariables false
set_option linter.unusedSimpArgs false
/-
Reading back inline values, and the assignments of a table.
-/
namespace Pkm
open Toml

namespace Spec

/-- Values that can be read back: all strings and keys can, no key occurs twice in a table, and no table is empty. -/
inductive Readable : TV → Prop
  | str (s : Text) : ReadableStr s → Readable (.str s)
  | int (n : Int) : Readable (.int n)
  | bool (b : Bool) : Readable (.bool b)
  | list (l : List TV) : (∀ v ∈ l, Readable v) → Readable (.list l)
  | table (t : List (Text × TV)) : t ≠ [] → (t.map Prod.fst).Nodup → (∀ e ∈ t, ReadableStr e.1) →
      (∀ e ∈ t, Readable e.2) → Readable (.table t)

end Spec
open Spec

namespace Toml

/-! ### Numbers -/

theorem showNatF_head (f : Nat) : ∀ n, n < f → 0 < n → ∃ c cs, showNatF f n = c :: cs ∧ c ≠ '0' := by
  induction f with
  | zero => intro n h; omega
  | succ f ih =>
    intro n h h0
    unfold showNatF
    split
    · rename_i h1
      refine ⟨digitChar n, [], rfl, ?_⟩
      intro e
      have := digitChar_toNat n h1
      rw [e] at this
      simp at this
      omega
    · obtain ⟨c, cs, h1, h2⟩ := ih (n / 10) (by omega) (by omega)
      rw [h1]
      exact ⟨c, _, rfl, h2⟩

theorem evalNat_show (n : Nat) : evalNat (showNat n) = some n := by
  unfold evalNat
  rw [if_neg (by simp [showNat_ne]), if_pos (List.all_eq_true.2 (showNat_digits n)), toNat_showNat]
  rw [if_neg]
  by_cases h : n = 0
  · subst h; decide
  · obtain ⟨c, cs, h1, h2⟩ := showNatF_head (n + 1) n (by omega) (by omega)
    have : showNat n = c :: cs := h1
    simp [this, h2]

/-- What may follow a value. -/
def Ends (v : TV) (r : Text) : Prop :=
  (∃ c u, r = c :: u ∧ (c = ',' ∨ c = ']' ∨ c = '}' ∨ c = '\n')) ∨ (r = [] ∧ ∀ n, v ≠ .int n)

theorem Ends.nonData {v : TV} {r : Text} (h : Ends v r) : nonData false false r = some r := by
  rcases h with ⟨c, u, rfl, hc⟩ | ⟨rfl, -⟩
  · rcases hc with rfl | rfl | rfl | rfl <;> rfl
  · rfl

theorem ends_char {v : TV} {c : Char} (u : Text) (h : c = ',' ∨ c = ']' ∨ c = '}' ∨ c = '\n') : Ends v (c :: u) :=
  Or.inl ⟨c, u, rfl, h⟩

theorem digit_head {c : Char} (h : isDigit c = true) : c ≠ '-' ∧ c ≠ '+' := by
  constructor <;> (intro e; subst e; exact absurd h (by decide))

theorem readNumber_show (n : Int) (r : Text) (h : Ends (.int n) r) : readNumber (showInt n ++ r) = some (.int n, r) := by
  rcases h with ⟨c, u, rfl, hc⟩ | ⟨-, h⟩
  · have key : ∀ m : Nat,
        ((showNat m ++ c :: u).takeWhile (fun c => isDigit c || c == '.' || c == 'e') = showNat m) ∧
        ((showNat m ++ c :: u).dropWhile (fun c => isDigit c || c == '.' || c == 'e') = c :: u) := by
      intro m
      exact takeWhile_append_stop _ (showNat m) (c :: u) (by intro d hd; simp [showNat_digits m d hd]) (by
        show (isDigit c || c == '.' || c == 'e') = false
        rcases hc with rfl | rfl | rfl | rfl <;> decide)
    have hcc : ¬ ((c = '-' || c = ':') = true) := by rcases hc with rfl | rfl | rfl | rfl <;> decide
    cases n with
    | ofNat m =>
      obtain ⟨d, ds, h1, h2⟩ := showNat_cons m
      have hd := digit_head h2
      have hm : showInt (.ofNat m) ++ c :: u = showNat m ++ c :: u := rfl
      rw [hm]
      unfold readNumber
      have : signOf (showNat m ++ c :: u) = (false, showNat m ++ c :: u) := by
        rw [h1]
        simp only [List.cons_append]
        unfold signOf
        split
        · rename_i e; simp at e; exact absurd e.1 hd.1
        · rename_i e; simp at e; exact absurd e.1 hd.2
        · rfl
      rw [this]
      simp only [(key m).1, (key m).2, evalNat_show]
      rw [if_neg hcc]
      simp
    | negSucc m =>
      have hm : showInt (.negSucc m) ++ c :: u = '-' :: (showNat (m + 1) ++ c :: u) := rfl
      rw [hm]
      unfold readNumber
      have : signOf ('-' :: (showNat (m + 1) ++ c :: u)) = (true, showNat (m + 1) ++ c :: u) := rfl
      rw [this]
      simp only [(key (m + 1)).1, (key (m + 1)).2, evalNat_show]
      rw [if_neg hcc]
      rfl
  · exact absurd rfl (h n)

/-! ### Values -/

theorem writeInline_head (v : TV) : ∃ c r, writeInline v = c :: r ∧ c ≠ ']' := by
  cases v with
  | str s => unfold writeInline writeStr; exact ⟨_, _, rfl, by decide⟩
  | int n =>
    unfold writeInline showInt
    split
    · rename_i m
      obtain ⟨c, cs, h1, h2⟩ := showNat_cons m
      exact ⟨c, cs, h1, by intro e; subst e; exact absurd h2 (by decide)⟩
    · exact ⟨_, _, rfl, by decide⟩
  | bool b => cases b <;> unfold writeInline <;> exact ⟨_, _, rfl, by decide⟩
  | list l => unfold writeInline; exact ⟨_, _, rfl, by decide⟩
  | table t => unfold writeInline; exact ⟨_, _, rfl, by decide⟩

theorem commas_cons (t t' : Text) (ts : List Text) : commas (t :: t' :: ts) = t ++ ([',', ' '] ++ commas (t' :: ts)) := by
  simp [commas]

theorem put_new (d : List (Text × TV)) (k : Text) (v : TV) (h : k ∉ d.map Prod.fst) : Dict.put d k v = d ++ [(k, v)] := by
  induction d with
  | nil => rfl
  | cons e d ih =>
    obtain ⟨a, w⟩ := e
    simp only [List.map_cons, List.mem_cons, not_or] at h
    have : ¬ a = k := fun e => h.1 e.symm
    simp [Dict.put, this, ih h.2]

theorem get_new (d : List (Text × TV)) (k : Text) (h : k ∉ d.map Prod.fst) : Dict.get d k = none :=
  (Dict.get_none_iff d k).2 h

theorem readKey_space (k r : Text) (hk : ReadableStr k) :
    readKey (' ' :: (writeKeyPart k ++ [' ', '='] ++ r)) = readKey (writeKeyPart k ++ [' ', '='] ++ r) := by
  unfold readKey
  have : nonData true false (' ' :: (writeKeyPart k ++ [' ', '='] ++ r)) = nonData true false (writeKeyPart k ++ [' ', '='] ++ r) := by
    rw [nonData]
    simp [isSpace]
  rw [this]

theorem keyPart_head (k : Text) : ∃ c r, writeKeyPart k = c :: r ∧ c ≠ '[' := by
  have h := openKey_part k []
  obtain ⟨c, r, hc, -⟩ := writeKeyPart_solid k
  refine ⟨c, r, hc, ?_⟩
  intro e
  subst e
  rw [hc] at h
  unfold openKey at h
  simp only [List.append_nil] at h
  split at h <;> simp at h

/-- One assignment: the key, the value and how it goes on. -/
theorem readAssignments_one (f : Nat) (inline : Bool) (k : Text) (v : TV) (r : Text) (acc : List (Text × TV))
    (hk : ReadableStr k) (hnew : k ∉ acc.map Prod.fst)
    (hv : readValue f (' ' :: (writeInline v ++ r)) = some (v, r)) :
    readAssignments (f + 1) inline (writeKeyPart k ++ [' ', '=', ' '] ++ writeInline v ++ r) acc =
      if inline then
        match (generalizing := false) r with
        | ',' :: ' ' :: r' => readAssignments f inline r' (acc ++ [(k, v)])
        | ',' :: r' => readAssignments f inline r' (acc ++ [(k, v)])
        | _ => some (acc ++ [(k, v)], dropNl r)
      else
        match (generalizing := false) r with
        | '\n' :: r' => readAssignments f inline r' (acc ++ [(k, v)])
        | _ => some (acc ++ [(k, v)], r) := by
  have ht : writeKeyPart k ++ [' ', '=', ' '] ++ writeInline v ++ r =
      writeKeyPart k ++ [' ', '='] ++ (' ' :: (writeInline v ++ r)) := by simp
  rw [ht]
  have hs : Solid (writeKeyPart k ++ [' ', '='] ++ (' ' :: (writeInline v ++ r))) := ((writeKeyPart_solid k).append).append
  have hkey := readKey_part k (' ' :: (writeInline v ++ r)) hk
  conv => lhs; unfold readAssignments
  rw [nonData_solid hs, hkey]
  obtain ⟨c, u, hc, hc'⟩ := keyPart_head k
  have hcons : writeKeyPart k ++ [' ', '='] ++ (' ' :: (writeInline v ++ r)) =
      c :: (u ++ [' ', '='] ++ (' ' :: (writeInline v ++ r))) := by rw [hc]; rfl
  rw [hcons]
  split
  · rename_i e; simp at e
  · rename_i e; simp at e
  · rename_i e; simp at e; exact absurd e.1 hc'
  · simp only [hv, List.map_cons, List.map_nil, enter, put_new acc k v hnew]
    rfl

theorem readValue_space (f : Nat) (t : Text) : readValue (f + 1) (' ' :: t) = readValue (f + 1) t := by
  unfold readValue
  have : nonData true false (' ' :: t) = nonData true false t := by
    rw [nonData]
    simp [isSpace]
  rw [this]

theorem readValue_bare (f : Nat) (v : TV) (r : Text) (hr : Ends v r)
    (h : readBare f (writeInline v ++ r) = some (v, r)) : readValue (f + 1) (writeInline v ++ r) = some (v, r) := by
  unfold readValue
  rw [nonData_solid (writeInline_solid v).append]
  simp only [h, hr.nonData]
  rfl

mutual
theorem readBare_write : ∀ (v : TV) (f : Nat) (r : Text), Readable v → Ends v r → 4 * (writeInline v).length ≤ f + 1 →
    readBare f (writeInline v ++ r) = some (v, r)
  | .str s, f, r, hv, hr, hf => by
    cases hv with
    | str _ hs =>
      cases f with
      | zero => simp [writeInline, writeStr] at hf; omega
      | succ f =>
        have h := readStr_write s r hs (by
          intro u e
          rcases hr with ⟨c, w, e', hc⟩ | ⟨e', -⟩
          · rw [e] at e'; simp at e'
            rcases hc with rfl | rfl | rfl | rfl <;> exact absurd e'.1 (by decide)
          · rw [e] at e'; simp at e')
        unfold writeInline
        unfold readBare
        unfold writeStr at h ⊢
        simp only [List.cons_append] at h ⊢
        rw [h]
        rfl
  | .int n, f, r, hv, hr, hf => by
    cases f with
    | zero =>
      have : 0 < (writeInline (.int n)).length := by
        obtain ⟨c, u, h, -⟩ := writeInline_solid (.int n)
        rw [h]; simp
      omega
    | succ f =>
      have h := readNumber_show n r hr
      unfold writeInline
      unfold readBare
      have hh : ∃ c u, showInt n ++ r = c :: u ∧ (c = '+' || c = '-' || isDigit c) = true := by
        cases n with
        | ofNat m =>
          obtain ⟨c, cs, h1, h2⟩ := showNat_cons m
          exact ⟨c, cs ++ r, by rw [← List.cons_append, ← h1]; rfl, by simp [h2]⟩
        | negSucc m => exact ⟨'-', _, rfl, by decide⟩
      obtain ⟨c, u, h1, h2⟩ := hh
      rw [h1] at h ⊢
      simp only
      rw [if_pos h2, h]
  | .bool b, f, r, hv, hr, hf => by
    cases f with
    | zero => cases b <;> simp [writeInline] at hf
    | succ f => cases b <;> rfl
  | .list l, f, r, hv, hr, hf => by
    cases hv with
    | list _ hl =>
      unfold writeInline at hf ⊢
      cases f with
      | zero => simp at hf; omega
      | succ f =>
        unfold readBare
        simp only [List.cons_append, List.append_assoc, List.nil_append]
        simp only [List.length_cons, List.length_append, List.length_nil] at hf
        have := readList_write l f r [] hl hr.nonData (by omega)
        simpa [isDigit] using this
  | .table t, f, r, hv, hr, hf => by
    cases hv with
    | table _ hne hnd hk hl =>
      unfold writeInline at hf ⊢
      cases f with
      | zero => simp at hf; omega
      | succ f =>
        unfold readBare
        simp only [List.cons_append, List.append_assoc, List.nil_append]
        simp only [List.length_cons, List.length_append, List.length_nil] at hf
        have := readEntries_write t f r [] hne hnd hk (by simp) hl (by omega)
        simp [isDigit, this, hr.nonData]
theorem readList_write : ∀ (l : List TV) (f : Nat) (r : Text) (acc : List TV), (∀ v ∈ l, Readable v) →
    nonData false false r = some r → 4 * (commas (writeItems l)).length + 4 ≤ f →
    readList f (commas (writeItems l) ++ ']' :: r) acc = some (.list (acc ++ l), r)
  | [], f, r, acc, hl, hr, hf => by
    cases f with
    | zero => omega
    | succ f =>
      unfold readList
      simp [writeItems, commas, nonData, isSpace, hr]
  | [v], f, r, acc, hl, hr, hf => by
    have hlen : 0 < (writeInline v).length := by
      obtain ⟨c, u, h, -⟩ := writeInline_solid v
      rw [h]; simp
    simp only [writeItems, commas] at hf ⊢
    obtain ⟨f, rfl⟩ : ∃ g, f = g + 3 := ⟨f - 3, by omega⟩
    have h := readValue_bare (f + 1) v (']' :: r) (ends_char r (by simp))
      (readBare_write v (f + 1) (']' :: r) (hl v (by simp)) (ends_char r (by simp)) (by omega))
    unfold readList
    rw [nonData_solid (writeInline_solid v).append]
    obtain ⟨c, u, hc, hc'⟩ := writeInline_head v
    rw [hc] at h ⊢
    simp only [List.cons_append] at h ⊢
    split
    · simp at *
    · rename_i e; simp at e; exact absurd e.1 hc'
    · simp at *
    · rename_i e; simp only [Option.some.injEq] at e; subst e
      rw [h]
      simp [nonData, isSpace, hr]
  | v :: w :: l, f, r, acc, hl, hr, hf => by
    have hlen : 0 < (writeInline v).length := by
      obtain ⟨c, u, h, -⟩ := writeInline_solid v
      rw [h]; simp
    have ih := fun f => readList_write (w :: l) f r (acc ++ [v]) (fun x hx => hl x (List.mem_cons_of_mem _ hx)) hr
    simp only [writeItems, commas_cons, List.length_append, List.length_cons, List.length_nil] at hf ih ⊢
    obtain ⟨f, rfl⟩ : ∃ g, f = g + 3 := ⟨f - 3, by omega⟩
    simp only [List.append_assoc]
    have h := readValue_bare (f + 1) v ([',', ' '] ++ (commas (writeInline w :: writeItems l) ++ ']' :: r)) (ends_char _ (by simp))
      (readBare_write v (f + 1) _ (hl v (by simp)) (ends_char _ (by simp)) (by omega))
    unfold readList
    rw [nonData_solid (writeInline_solid v).append]
    obtain ⟨c, u, hc, hc'⟩ := writeInline_head v
    rw [hc] at h ⊢
    simp only [List.cons_append] at h ⊢
    split
    · simp at *
    · rename_i e; simp at e; exact absurd e.1 hc'
    · simp at *
    · rename_i e; simp only [Option.some.injEq] at e; subst e
      rw [h]
      have : nonData true false ([',', ' '] ++ (commas (writeInline w :: writeItems l) ++ ']' :: r)) =
          some (',' :: ' ' :: (commas (writeInline w :: writeItems l) ++ ']' :: r)) :=
        nonData_solid ⟨_, _, rfl, by decide, by decide⟩
      simp only [List.cons_append, List.nil_append] at this ⊢
      simp only [this]
      rw [ih (f + 2) (by omega)]
      simp
theorem readEntries_write : ∀ (es : List (Text × TV)) (f : Nat) (r : Text) (acc : List (Text × TV)), es ≠ [] →
    (es.map Prod.fst).Nodup → (∀ e ∈ es, ReadableStr e.1) → (∀ e ∈ es, e.1 ∉ acc.map Prod.fst) →
    (∀ e ∈ es, Readable e.2) → 4 * (commas (writeEntries es)).length + 4 ≤ f →
    readAssignments f true (commas (writeEntries es) ++ '}' :: r) acc = some (acc ++ es, '}' :: r)
  | [], f, r, acc, hne, _, _, _, _, hf => absurd rfl hne
  | [(k, v)], f, r, acc, hne, hnd, hk, hnew, hl, hf => by
    have hlen : 0 < (writeInline v).length := by
      obtain ⟨c, u, h, -⟩ := writeInline_solid v
      rw [h]; simp
    simp only [writeEntries, commas, List.length_append, List.length_cons, List.length_nil] at hf ⊢
    obtain ⟨f, rfl⟩ : ∃ g, f = g + 3 := ⟨f - 3, by omega⟩
    have h := readValue_bare (f + 1) v ('}' :: r) (ends_char r (by simp))
      (readBare_write v (f + 1) ('}' :: r) (hl (k, v) (by simp)) (ends_char r (by simp)) (by omega))
    rw [readAssignments_one (f + 2) true k v ('}' :: r) acc (hk (k, v) (by simp)) (hnew (k, v) (by simp))
      (by rw [readValue_space]; exact h)]
    rfl
  | (k, v) :: e2 :: es, f, r, acc, hne, hnd, hk, hnew, hl, hf => by
    have hlen : 0 < (writeInline v).length := by
      obtain ⟨c, u, h, -⟩ := writeInline_solid v
      rw [h]; simp
    have hnd' := hnd
    simp only [List.map_cons, List.nodup_cons] at hnd'
    have ih := fun f => readEntries_write (e2 :: es) f r (acc ++ [(k, v)]) (by simp)
      (by simp only [List.map_cons, List.nodup_cons]; exact hnd'.2)
      (fun x hx => hk x (List.mem_cons_of_mem _ hx)) (by
        intro x hx
        simp only [List.map_append, List.map_cons, List.map_nil, List.mem_append, List.mem_singleton, not_or]
        refine ⟨hnew x (List.mem_cons_of_mem _ hx), ?_⟩
        intro e
        apply hnd'.1
        rw [← e]
        have := List.mem_map_of_mem (f := Prod.fst) hx
        simpa using this)
      (fun x hx => hl x (List.mem_cons_of_mem _ hx))
    obtain ⟨k2, v2⟩ := e2
    simp only [writeEntries, commas_cons, List.length_append, List.length_cons, List.length_nil] at hf ih ⊢
    obtain ⟨f, rfl⟩ : ∃ g, f = g + 3 := ⟨f - 3, by omega⟩
    rw [List.append_assoc (writeKeyPart k ++ [' ', '=', ' '] ++ writeInline v)]
    have h := readValue_bare (f + 1) v _ (ends_char _ (by simp))
      (readBare_write v (f + 1) (',' :: ' ' :: (commas ((writeKeyPart k2 ++ [' ', '=', ' '] ++ writeInline v2) :: writeEntries es) ++ '}' :: r)) (hl (k, v) (by simp)) (ends_char _ (by simp)) (by omega))
    have e : [',', ' '] ++ commas ((writeKeyPart k2 ++ [' ', '=', ' '] ++ writeInline v2) :: writeEntries es) ++ '}' :: r =
      ',' :: ' ' :: (commas ((writeKeyPart k2 ++ [' ', '=', ' '] ++ writeInline v2) :: writeEntries es) ++ '}' :: r) := rfl
    rw [e, readAssignments_one (f + 2) true k v _ acc (hk (k, v) (by simp)) (hnew (k, v) (by simp))
      (by rw [readValue_space]; exact h)]
    simp only [if_true]
    rw [ih (f + 2) (by omega)]
    simp
end

/-- An inline value is read back. -/
theorem readValue_write (v : TV) (f : Nat) (r : Text) (hv : Readable v) (hr : Ends v r)
    (hf : 4 * (writeInline v).length ≤ f) : readValue f (' ' :: (writeInline v ++ r)) = some (v, r) := by
  have hlen : 0 < (writeInline v).length := by
    obtain ⟨c, u, h, -⟩ := writeInline_solid v
    rw [h]; simp
  obtain ⟨f, rfl⟩ : ∃ g, f = g + 1 := ⟨f - 1, by omega⟩
  rw [readValue_space]
  exact readValue_bare f v r hr (readBare_write v f r hv hr hf)

end Toml
end Pkm
