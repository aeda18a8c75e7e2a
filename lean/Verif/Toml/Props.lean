import Verif.Toml.Document
set_option linter.unusedVariables false
/-
Property C34: what is written as TOML is read back as the same data.
-/
namespace Pkm
open Toml Spec

/-- C34 (strings). A string without null characters that does not end with a backslash is read back as itself, whatever
quotes, backslashes, line feeds and other characters are in it, and reading stops right behind it. Missing: strings
that end with a backslash, and strings with null characters, see below. -/
theorem toml_string_partial (s rest : Text) (hs : ReadableStr s) (hr : rest.head? ≠ some '"') :
    readStr (writeStr s ++ rest) = some (s, rest) :=
  readStr_write s rest hs (by intro u e; rw [e] at hr; simp at hr)

/-- C34 (documents). Data in which all strings can be read back, no key occurs twice in a table and no table below the
root is empty is read back as equal data, at any depth of lists and tables, provided that the text does not end with a
digit. Missing: floats and dates, and the cases below. -/
theorem toml_round_trip_partial (t : List (Text × TV)) (hnd : (t.map Prod.fst).Nodup) (hk : ∀ e ∈ t, ReadableStr e.1)
    (hv : ∀ e ∈ t, Readable e.2) (hend : ∀ c, (dumps t).getLast? = some c → isDigit c = false) :
    ∃ t', loads (dumps t) = some t' ∧ Equal (.table t') (.table t) := by
  refine ⟨_, loads_dumps t hnd hk hv hend, ?_⟩
  refine .table _ _ ?_ ?_
  · intro k; rw [get_own_arr 0 t k hnd]; simp
  · intro k v w h1 h2
    rw [get_own_arr 0 t k hnd, h2] at h1
    simp at h1
    have hm : (k, w) ∈ t := Dict.get_mem _ _ _ h2
    split at h1
    · subst h1; exact equal_refl _
    · rename_i hi
      subst h1
      exact (equal_arr (hv (k, w) hm) 1).1 (kept_of_not_inline (by simpa using hi))

namespace TomlExample

mutual
/-- Equality of values can be decided (used in examples). -/
def TV.decEq : (a b : TV) → Decidable (a = b)
  | .str x, .str y => decidable_of_iff (x = y) (by simp)
  | .str _, .int _ => isFalse (by simp)
  | .str _, .bool _ => isFalse (by simp)
  | .str _, .list _ => isFalse (by simp)
  | .str _, .table _ => isFalse (by simp)
  | .int _, .str _ => isFalse (by simp)
  | .int x, .int y => decidable_of_iff (x = y) (by simp)
  | .int _, .bool _ => isFalse (by simp)
  | .int _, .list _ => isFalse (by simp)
  | .int _, .table _ => isFalse (by simp)
  | .bool _, .str _ => isFalse (by simp)
  | .bool _, .int _ => isFalse (by simp)
  | .bool x, .bool y => decidable_of_iff (x = y) (by simp)
  | .bool _, .list _ => isFalse (by simp)
  | .bool _, .table _ => isFalse (by simp)
  | .list _, .str _ => isFalse (by simp)
  | .list _, .int _ => isFalse (by simp)
  | .list _, .bool _ => isFalse (by simp)
  | .list x, .list y => match TV.decEqs x y with
    | isTrue h => isTrue (by rw [h])
    | isFalse h => isFalse (by intro e; simp at e; exact h e)
  | .list _, .table _ => isFalse (by simp)
  | .table _, .str _ => isFalse (by simp)
  | .table _, .int _ => isFalse (by simp)
  | .table _, .bool _ => isFalse (by simp)
  | .table _, .list _ => isFalse (by simp)
  | .table x, .table y => match TV.decEqEntries x y with
    | isTrue h => isTrue (by rw [h])
    | isFalse h => isFalse (by intro e; simp at e; exact h e)
/-- Of lists. -/
def TV.decEqs : (a b : List TV) → Decidable (a = b)
  | [], [] => isTrue rfl
  | [], _ :: _ => isFalse (by simp)
  | _ :: _, [] => isFalse (by simp)
  | x :: xs, y :: ys => match TV.decEq x y with
    | isFalse h => isFalse (by intro e; simp at e; exact h e.1)
    | isTrue h => match TV.decEqs xs ys with
      | isTrue h' => isTrue (by rw [h, h'])
      | isFalse h' => isFalse (by intro e; simp at e; exact h' e.2)
/-- Of tables. -/
def TV.decEqEntries : (a b : List (Text × TV)) → Decidable (a = b)
  | [], [] => isTrue rfl
  | [], _ :: _ => isFalse (by simp)
  | _ :: _, [] => isFalse (by simp)
  | (j, x) :: xs, (k, y) :: ys =>
    if hk : j = k then
      match TV.decEq x y with
      | isFalse h => isFalse (by intro e; simp at e; exact h e.1.2)
      | isTrue h => match TV.decEqEntries xs ys with
        | isTrue h' => isTrue (by rw [hk, h, h'])
        | isFalse h' => isFalse (by intro e; simp at e; exact h' e.2)
    else isFalse (by intro e; simp at e; exact hk e.1.1)
end

instance : DecidableEq TV := TV.decEq

/-- Some text. -/
def txt (s : String) : Text := s.toList

/-- A table of a project: strings with quotes and line feeds, nested lists, inline, hidden and listed tables. -/
def data : List (Text × TV) :=
  [(txt "tool", .table [(txt "x", .table [(txt "deps", .list [.str (txt "a\"\\ \nb"), .list [.int (-10), .bool true]])])]),
   (txt "n", .int 0),
   (txt "file", .list [.table [(txt "hash", .str (txt "é")), (txt "sub key", .table [(txt "v", .list [])])],
     .table [(txt "inner", .table [(txt "w", .int 7), (txt "s", .str [])])]])]

theorem data_readable : (data.map Prod.fst).Nodup ∧ (∀ e ∈ data, ReadableStr e.1) ∧ (∀ e ∈ data, Readable e.2) := by
  refine ⟨by decide +kernel, ?_, ?_⟩
  · intro e he
    simp only [data, List.mem_cons, List.not_mem_nil, or_false] at he
    rcases he with rfl | rfl | rfl <;> exact ⟨by decide +kernel, by decide +kernel⟩
  · intro e he
    simp only [data, List.mem_cons, List.not_mem_nil, or_false] at he
    rcases he with rfl | rfl | rfl
    · refine .table _ (by simp) (by simp) (by intro e he; simp at he; subst he; exact ⟨by decide +kernel, by decide +kernel⟩) ?_
      intro e he; simp at he; subst he
      refine .table _ (by simp) (by simp) (by intro e he; simp at he; subst he; exact ⟨by decide +kernel, by decide +kernel⟩) ?_
      intro e he; simp at he; subst he
      refine .list _ ?_
      intro v hv; simp at hv
      rcases hv with rfl | rfl
      · exact .str _ ⟨by decide +kernel, by decide +kernel⟩
      · refine .list _ ?_
        intro v hv; simp at hv
        rcases hv with rfl | rfl
        · exact .int _
        · exact .bool _
    · exact .int _
    · refine .list _ ?_
      intro v hv; simp at hv
      rcases hv with rfl | rfl
      · refine .table _ (by simp) (by decide +kernel) ?_ ?_
        · intro e he; simp at he; rcases he with rfl | rfl <;> exact ⟨by decide +kernel, by decide +kernel⟩
        · intro e he; simp at he
          rcases he with rfl | rfl
          · exact .str _ ⟨by decide +kernel, by decide +kernel⟩
          · refine .table _ (by simp) (by simp) (by intro e he; simp at he; subst he; exact ⟨by decide +kernel, by decide +kernel⟩) ?_
            intro e he; simp at he; subst he
            exact .list _ (by intro v hv; simp at hv)
      · refine .table _ (by simp) (by simp) (by intro e he; simp at he; subst he; exact ⟨by decide +kernel, by decide +kernel⟩) ?_
        intro e he; simp at he; subst he
        refine .table _ (by simp) (by decide +kernel) ?_ ?_
        · intro e he; simp at he; rcases he with rfl | rfl <;> exact ⟨by decide +kernel, by decide +kernel⟩
        · intro e he; simp at he
          rcases he with rfl | rfl
          · exact .int _
          · exact .str _ ⟨by decide +kernel, by decide +kernel⟩

/-- The data meets the hypotheses of `toml_round_trip_partial`. -/
example : ∃ t', loads (dumps data) = some t' ∧ Equal (.table t') (.table data) :=
  toml_round_trip_partial data data_readable.1 data_readable.2.1 data_readable.2.2 (by
    have h : (dumps data).getLast? = some '}' := by decide +kernel
    intro c hc
    rw [h] at hc
    simp at hc
    subst hc
    decide)

/-- So does a string. -/
example : readStr (writeStr (txt "\\\"\n \t") ++ txt ", 'x'") = some (txt "\\\"\n \t", txt ", 'x'") :=
  toml_string_partial _ _ ⟨by decide +kernel, by decide +kernel⟩ (by decide +kernel)

end TomlExample
open TomlExample

/-- C34, what fails: a string that ends with a backslash is not read back (`{'a': 'x\'}`). -/
theorem toml_backslash_violated : loads (dumps [(txt "a", .str ['x', '\\'])]) = none := by decide +kernel

/-- C34, what fails: neither is a string with a null character. -/
theorem toml_null_violated : loads (dumps [(txt "a", .str [Char.ofNat 0])]) = none := by decide +kernel

/-- C34, what fails: a number at the very end of the text is not read back (`{'a': 5}`). -/
theorem toml_number_violated : dumps [(txt "a", .int 5)] = txt "a = 5" ∧ loads (dumps [(txt "a", .int 5)]) = none :=
  ⟨by decide +kernel, by decide +kernel⟩

/-- C34, what fails: an empty table is not written at all, so it gets lost (`{'a': {}, 'b': 'c'}`). -/
theorem toml_empty_table_violated :
    dumps [(txt "a", .table []), (txt "b", .str (txt "c"))] = txt "b = \"c\"" ∧
    loads (dumps [(txt "a", .table []), (txt "b", .str (txt "c"))]) = some [(txt "b", .str (txt "c"))] :=
  ⟨by decide +kernel, by decide +kernel⟩

/-- C34, what fails: an empty table in a list of other values is written as `{}`, which is not read back. -/
theorem toml_inline_empty_violated :
    dumps [(txt "a", .list [.bool true, .table []])] = txt "a = [true, {}]" ∧
    loads (dumps [(txt "a", .list [.bool true, .table []])]) = none :=
  ⟨by decide +kernel, by decide +kernel⟩

/-- Reading (not writing): a comment on the last line without a line feed makes the reader loop. -/
theorem toml_comment_end_violated : loads (txt "a = true # b") = none ∧ loads (txt "a = true # b\n") = some [(txt "a", .bool true)] :=
  ⟨by decide +kernel, by decide +kernel⟩

end Pkm
