import Verif.Toml.Values
set_option linter.unusedVariables false
set_option linter.unusedSimpArgs false
/-
The written text as a list of blocks (a header and its assignments), and reading such a list.
-/
namespace Pkm
open Toml Spec
namespace Toml

/-- A header and the assignments below it. -/
structure Block where
  item : Bool
  path : List Text
  own : List (Text × TV)

/-- The assignments of a table that are written below its header. -/
def own (level : Nat) (t : List (Text × TV)) : List (Text × TV) := t.filter (fun e => isInline (level + 1) e.2)

def line (e : Text × TV) : Text := writeKeyPart e.1 ++ [' ', '=', ' '] ++ writeInline e.2

def lines : List (Text × TV) → Text
  | [] => []
  | e :: es => line e ++ ['\n'] ++ lines es

/-- The lines without the last line feed. -/
def lastLines : List (Text × TV) → Text
  | [] => []
  | [e] => line e
  | e :: es => line e ++ ['\n'] ++ lastLines es

def Block.text (b : Block) : Text :=
  writeHeader b.item b.path ++ lines b.own ++ (if b.own.isEmpty then [] else ['\n'])

mutual
def subBlocks (path : List Text) (level : Nat) : TV → List Block
  | .list l => tablesBlocks path (level + 1) l
  | .table t =>
    if level != 0 && noAssignments t then subsBlocks true path level t
    else ⟨false, path, own level t⟩ :: subsBlocks false path level t
  | _ => []
def subsBlocks (hidden : Bool) (path : List Text) (level : Nat) : List (Text × TV) → List Block
  | [] => []
  | (k, v) :: es =>
    (if hidden || !isInline (level + 1) v then subBlocks (path ++ [k]) (level + 1) v else []) ++
      subsBlocks hidden path level es
def tablesBlocks (path : List Text) (level : Nat) : List TV → List Block
  | [] => []
  | .table t :: vs => ⟨true, path, own level t⟩ :: subsBlocks false path level t ++ tablesBlocks path level vs
  | _ :: vs => tablesBlocks path level vs
end

def texts (bs : List Block) : Text := bs.flatMap Block.text

theorem texts_append (a b : List Block) : texts (a ++ b) = texts a ++ texts b := by simp [texts]

theorem writeAssignments_lines (level : Nat) (t : List (Text × TV)) : writeAssignments level t = lines (own level t) := by
  induction t with
  | nil => rfl
  | cons e t ih =>
    obtain ⟨k, v⟩ := e
    unfold writeAssignments own
    rw [List.filter_cons]
    by_cases h : isInline (level + 1) v = true
    · simp [h, lines, line, ih, own]
    · simp [h, ih, own]

theorem writeOwn_text (item : Bool) (path : List Text) (level : Nat) (t : List (Text × TV)) :
    writeOwn item path level t = Block.text ⟨item, path, own level t⟩ := by
  unfold writeOwn Block.text
  rw [writeAssignments_lines]
  have : t.any (fun e => isInline (level + 1) e.2) = !(own level t).isEmpty := by
    induction t with
    | nil => rfl
    | cons e t ih =>
      unfold own at ih ⊢
      rw [List.filter_cons, List.any_cons, ih]
      by_cases h : isInline (level + 1) e.2 = true <;> simp [h]
  rw [this]
  cases (own level t).isEmpty <;> rfl

mutual
theorem writeSub_texts : ∀ (v : TV) (path : List Text) (level : Nat), writeSub path level v = texts (subBlocks path level v)
  | .list l, path, level => by unfold writeSub subBlocks; exact writeTables_texts l path (level + 1)
  | .table t, path, level => by
    unfold writeSub subBlocks
    split
    · exact writeSubs_texts t true path level
    · rw [writeOwn_text, writeSubs_texts t false path level]; simp [texts]
  | .str _, path, level => by simp [writeSub, subBlocks, texts]
  | .int _, path, level => by simp [writeSub, subBlocks, texts]
  | .bool _, path, level => by simp [writeSub, subBlocks, texts]
theorem writeSubs_texts : ∀ (es : List (Text × TV)) (hidden : Bool) (path : List Text) (level : Nat),
    writeSubs hidden path level es = texts (subsBlocks hidden path level es)
  | [], hidden, path, level => by simp [writeSubs, subsBlocks, texts]
  | (k, v) :: es, hidden, path, level => by
    unfold writeSubs subsBlocks
    rw [texts_append, writeSubs_texts es hidden path level, writeSub_texts v]
    split <;> simp [texts]
theorem writeTables_texts : ∀ (vs : List TV) (path : List Text) (level : Nat),
    writeTables path level vs = texts (tablesBlocks path level vs)
  | [], path, level => by simp [writeTables, tablesBlocks, texts]
  | .table t :: vs, path, level => by
    unfold writeTables tablesBlocks
    rw [writeOwn_text, writeSubs_texts t false path level, writeTables_texts vs path level]
    simp [texts]
  | .str _ :: vs, path, level => by unfold writeTables tablesBlocks; exact writeTables_texts vs path level
  | .int _ :: vs, path, level => by unfold writeTables tablesBlocks; exact writeTables_texts vs path level
  | .bool _ :: vs, path, level => by unfold writeTables tablesBlocks; exact writeTables_texts vs path level
  | .list _ :: vs, path, level => by unfold writeTables tablesBlocks; exact writeTables_texts vs path level
end

def docBlocks (t : List (Text × TV)) : List Block := ⟨false, [], own 0 t⟩ :: subsBlocks false [] 0 t

theorem dumps_texts (t : List (Text × TV)) : dumps t = rstrip (texts (docBlocks t)) := by
  unfold dumps
  rw [writeOwn_text, writeSubs_texts]
  simp [texts, docBlocks]

/-! ### The end of the text -/

theorem writeInline_last (v : TV) : ∃ u c, writeInline v = u ++ [c] ∧ isSpace c = false ∧ (∀ n, v = .int n → isDigit c = true) := by
  cases v with
  | str s => exact ⟨'"' :: escape s, '"', by simp [writeInline, writeStr], by decide, by intro n e; simp at e⟩
  | int n =>
    have h : ∀ m, ∃ u c, showNat m = u ++ [c] ∧ isDigit c = true := by
      intro m
      obtain ⟨c, cs, h1, h2⟩ := showNat_reverse_cons m
      refine ⟨cs.reverse, c, ?_, h2⟩
      have := congrArg List.reverse h1
      simpa using this
    cases n with
    | ofNat m =>
      obtain ⟨u, c, h1, h2⟩ := h m
      exact ⟨u, c, by unfold writeInline showInt; exact h1, (digit_solid h2).1, fun _ _ => h2⟩
    | negSucc m =>
      obtain ⟨u, c, h1, h2⟩ := h (m + 1)
      exact ⟨'-' :: u, c, by unfold writeInline showInt; simp [h1], (digit_solid h2).1, fun _ _ => h2⟩
  | bool b => cases b
              · exact ⟨['f', 'a', 'l', 's'], 'e', by simp [writeInline], by decide, by intro n e; simp at e⟩
              · exact ⟨['t', 'r', 'u'], 'e', by simp [writeInline], by decide, by intro n e; simp at e⟩
  | list l => exact ⟨'[' :: commas (writeItems l), ']', by simp [writeInline], by decide, by intro n e; simp at e⟩
  | table t => exact ⟨'{' :: commas (writeEntries t), '}', by simp [writeInline], by decide, by intro n e; simp at e⟩

theorem rstrip_last (u : Text) (c : Char) (s : Text) (hc : isSpace c = false) (hs : ∀ d ∈ s, isSpace d = true) :
    rstrip (u ++ [c] ++ s) = u ++ [c] := by
  unfold rstrip
  have : (u ++ [c] ++ s).reverse = s.reverse ++ (c :: u.reverse) := by simp
  rw [this, List.dropWhile_append]
  have : List.dropWhile isSpace s.reverse = [] := by
    have : ∀ l : Text, (∀ d ∈ l, isSpace d = true) → List.dropWhile isSpace l = [] := by
      intro l
      induction l with
      | nil => intro _; rfl
      | cons a l ih =>
        intro h
        rw [List.dropWhile_cons, if_pos (h a List.mem_cons_self)]
        exact ih (fun d hd => h d (List.mem_cons_of_mem _ hd))
    exact this _ (by simpa using hs)
  simp [this, hc]

theorem lastLines_cons (e e' : Text × TV) (es : List (Text × TV)) : lastLines (e :: e' :: es) = line e ++ ['\n'] ++ lastLines (e' :: es) := rfl

theorem lines_last (es : List (Text × TV)) (h : es ≠ []) : lines es = lastLines es ++ ['\n'] := by
  induction es with
  | nil => exact absurd rfl h
  | cons e es ih =>
    cases es with
    | nil => simp [lines, lastLines]
    | cons e' es => rw [lastLines_cons, lines, ih (by simp)]; simp

theorem lastLines_last (es : List (Text × TV)) (e : Text × TV) : ∃ u, lastLines (es ++ [e]) = u ++ writeInline e.2 := by
  induction es with
  | nil => exact ⟨_, rfl⟩
  | cons a es ih =>
    obtain ⟨u, hu⟩ := ih
    cases es with
    | nil => exact ⟨line a ++ ['\n'] ++ (writeKeyPart e.1 ++ [' ', '=', ' ']), by simp [lastLines, line]⟩
    | cons b es =>
      refine ⟨line a ++ ['\n'] ++ u, ?_⟩
      rw [List.cons_append, List.cons_append, lastLines_cons, ← List.cons_append, hu]
      simp

/-- The text of the blocks without the white space at its end. -/
def closing : List Block → Text
  | [] => []
  | [b] => writeHeader b.item b.path ++ lastLines b.own
  | b :: bs => b.text ++ closing bs

theorem closing_cons (b b' : Block) (bs : List Block) : closing (b :: b' :: bs) = b.text ++ closing (b' :: bs) := rfl

theorem closing_snoc (bs : List Block) (b : Block) : closing (bs ++ [b]) = texts bs ++ (writeHeader b.item b.path ++ lastLines b.own) := by
  induction bs with
  | nil => rfl
  | cons a bs ih =>
    cases bs with
    | nil => simp [closing, texts]
    | cons a' bs =>
      rw [List.cons_append, List.cons_append, closing_cons, ← List.cons_append, ih]
      simp [texts]

theorem rstrip_texts (bs : List Block) (b : Block) (h : b.own ≠ []) : rstrip (texts (bs ++ [b])) = closing (bs ++ [b]) := by
  obtain ⟨es, e, he⟩ : ∃ es e, b.own = es ++ [e] := ⟨b.own.dropLast, b.own.getLast h, (List.dropLast_concat_getLast h).symm⟩
  obtain ⟨u, hu⟩ := lastLines_last es e
  obtain ⟨w, c, hw, hc, -⟩ := writeInline_last e.2
  have hl : lastLines b.own = u ++ w ++ [c] := by rw [he, hu, hw]; simp
  have : b.own.isEmpty = false := by cases hb : b.own <;> simp_all
  rw [closing_snoc, texts_append]
  have : texts [b] = writeHeader b.item b.path ++ (u ++ w ++ [c]) ++ ['\n', '\n'] := by
    simp only [texts, List.flatMap_cons, List.flatMap_nil, List.append_nil]
    unfold Block.text
    rw [lines_last _ h, hl, this]
    simp
  rw [this, hl]
  have := rstrip_last (texts bs ++ (writeHeader b.item b.path ++ (u ++ w))) c ['\n', '\n'] hc (by decide)
  simp only [List.append_assoc] at this ⊢
  exact this

/-! ### Reading the blocks -/

structure GoodBlock (b : Block) : Prop where
  keys : ∀ k ∈ b.path, ReadableStr k
  nodup : (b.own.map Prod.fst).Nodup
  own_keys : ∀ e ∈ b.own, ReadableStr e.1
  own_values : ∀ e ∈ b.own, Readable e.2

/-- Assignments with something behind them. -/
theorem readLines (es : List (Text × TV)) : ∀ (f : Nat) (tail rest : Text) (acc : List (Text × TV)),
    (es.map Prod.fst).Nodup → (∀ e ∈ es, ReadableStr e.1) → (∀ e ∈ es, e.1 ∉ acc.map Prod.fst) → (∀ e ∈ es, Readable e.2) →
    4 * (lines es).length + 4 ≤ f → (tail = '\n' :: '[' :: rest ∨ tail = '[' :: rest) →
    readAssignments f false (lines es ++ tail) acc = some (acc ++ es, '[' :: rest) := by
  induction es with
  | nil =>
    intro f tail rest acc _ _ _ _ hf ht
    cases f with
    | zero => omega
    | succ f =>
      unfold readAssignments
      rcases ht with rfl | rfl <;> simp [lines, nonData, isSpace, dropNl]
  | cons e es ih =>
    intro f tail rest acc hnd hk hnew hv hf ht
    obtain ⟨k, v⟩ := e
    simp only [List.map_cons, List.nodup_cons] at hnd
    have hsp : lines ((k, v) :: es) ++ tail = writeKeyPart k ++ [' ', '=', ' '] ++ writeInline v ++ ('\n' :: (lines es ++ tail)) := by
      simp [lines, line]
    rw [hsp]
    have hlen : (lines ((k, v) :: es)).length = (writeKeyPart k).length + 3 + (writeInline v).length + 1 + (lines es).length := by
      simp [lines, line]; omega
    obtain ⟨f, rfl⟩ : ∃ g, f = g + 1 := ⟨f - 1, by omega⟩
    rw [readAssignments_one f false k v _ acc (hk (k, v) (by simp)) (hnew (k, v) (by simp))
      (readValue_write v f _ (hv (k, v) (by simp)) (ends_char _ (by simp)) (by omega))]
    simp only [Bool.false_eq_true, if_false]
    rw [ih f tail rest (acc ++ [(k, v)]) hnd.2 (fun x hx => hk x (List.mem_cons_of_mem _ hx)) ?_
      (fun x hx => hv x (List.mem_cons_of_mem _ hx)) (by omega) ht]
    · simp
    · intro x hx
      simp only [List.map_append, List.map_cons, List.map_nil, List.mem_append, List.mem_singleton, not_or]
      refine ⟨hnew x (List.mem_cons_of_mem _ hx), ?_⟩
      intro e
      apply hnd.1
      rw [← e]
      exact List.mem_map_of_mem hx

/-- The last assignments of the text. -/
theorem readLastLines (es : List (Text × TV)) : ∀ (f : Nat) (acc : List (Text × TV)),
    (es.map Prod.fst).Nodup → (∀ e ∈ es, ReadableStr e.1) → (∀ e ∈ es, e.1 ∉ acc.map Prod.fst) → (∀ e ∈ es, Readable e.2) →
    4 * (lastLines es).length + 4 ≤ f → (∀ e n, es.getLast? = some e → e.2 ≠ .int n) →
    readAssignments f false (lastLines es) acc = some (acc ++ es, []) := by
  induction es with
  | nil =>
    intro f acc _ _ _ _ hf _
    cases f with
    | zero => omega
    | succ f => unfold readAssignments; simp [lastLines, nonData, dropNl]
  | cons e es ih =>
    intro f acc hnd hk hnew hv hf hlast
    obtain ⟨k, v⟩ := e
    simp only [List.map_cons, List.nodup_cons] at hnd
    cases es with
    | nil =>
      have hsp : lastLines [(k, v)] = writeKeyPart k ++ [' ', '=', ' '] ++ writeInline v ++ [] := by simp [lastLines, line]
      rw [hsp] at hf ⊢
      simp only [List.length_append, List.length_cons, List.length_nil] at hf
      obtain ⟨f, rfl⟩ : ∃ g, f = g + 1 := ⟨f - 1, by omega⟩
      rw [readAssignments_one f false k v _ acc (hk (k, v) (by simp)) (hnew (k, v) (by simp))
        (readValue_write v f _ (hv (k, v) (by simp)) (Or.inr ⟨rfl, fun n => hlast (k, v) n rfl⟩) (by omega))]
      rfl
    | cons e' es =>
      have hsp : lastLines ((k, v) :: e' :: es) = writeKeyPart k ++ [' ', '=', ' '] ++ writeInline v ++ ('\n' :: lastLines (e' :: es)) := by
        rw [lastLines_cons]; simp [line]
      rw [hsp] at hf ⊢
      simp only [List.length_append, List.length_cons, List.length_nil] at hf
      obtain ⟨f, rfl⟩ : ∃ g, f = g + 1 := ⟨f - 1, by omega⟩
      rw [readAssignments_one f false k v _ acc (hk (k, v) (by simp)) (hnew (k, v) (by simp))
        (readValue_write v f _ (hv (k, v) (by simp)) (ends_char _ (by simp)) (by omega))]
      simp only [Bool.false_eq_true, if_false]
      rw [ih f (acc ++ [(k, v)]) hnd.2 (fun x hx => hk x (List.mem_cons_of_mem _ hx)) ?_
        (fun x hx => hv x (List.mem_cons_of_mem _ hx)) (by omega) (by
          intro x n hx
          apply hlast x n
          rw [List.getLast?_cons_cons]; exact hx)]
      · simp
      · intro x hx
        simp only [List.map_append, List.map_cons, List.map_nil, List.mem_append, List.mem_singleton, not_or]
        refine ⟨hnew x (List.mem_cons_of_mem _ hx), ?_⟩
        intro e
        apply hnd.1
        rw [← e]
        exact List.mem_map_of_mem hx

/-- What reading a block does to the data. -/
def stepBlock (D : List (Text × TV)) (b : Block) : Option (List (Text × TV)) :=
  enter (b.path.map .key ++ (if b.item then [.item] else [])) (.table b.own) D

theorem fullKey_item (item : Bool) (ks : List Text) :
    fullKey ks (if item then .item else .table) = ks.map .key ++ (if item then [.item] else []) := by
  cases item <;> simp [fullKey]

theorem header_start (item : Bool) (ks : List Text) (h : ks ≠ []) : ∃ u, writeHeader item ks = '[' :: u := by
  have : ks.isEmpty = false := by cases ks <;> simp_all
  cases item <;> simp [writeHeader, this]

theorem closing_start (b : Block) (bs : List Block) (h : b.path ≠ []) : ∃ u, closing (b :: bs) = '[' :: u := by
  obtain ⟨u, hu⟩ := header_start b.item b.path h
  cases bs with
  | nil => exact ⟨u ++ lastLines b.own, by simp [closing, hu]⟩
  | cons b' bs => rw [closing_cons]; unfold Block.text; rw [hu]; exact ⟨_, rfl⟩

/-- The last assignment of the last block has a value other than a number. -/
def NoLastInt (bs : List Block) : Prop := ∀ b e n, bs.getLast? = some b → b.own.getLast? = some e → e.2 ≠ .int n

theorem noLastInt_tail {b b' : Block} {bs : List Block} (h : NoLastInt (b :: b' :: bs)) : NoLastInt (b' :: bs) := by
  intro x e n hx
  apply h x e n
  rw [List.getLast?_cons_cons]; exact hx

/-- What follows the header of a block. -/
theorem readOwn (b : Block) (bs : List Block) (f : Nat) (hb : GoodBlock b) (hp : ∀ x ∈ bs, x.path ≠ [])
    (hi : NoLastInt (b :: bs)) (u : Text) (hu : closing (b :: bs) = writeHeader b.item b.path ++ u) (hf : 4 * u.length + 4 ≤ f) :
    readAssignments f false u [] = some (b.own, closing bs) := by
  cases bs with
  | nil =>
    have : u = lastLines b.own := List.append_cancel_left (hu.symm.trans rfl)
    subst this
    have := readLastLines b.own f [] hb.nodup hb.own_keys (by simp) hb.own_values hf (by
      intro e n he
      exact hi b e n rfl he)
    simpa [closing] using this
  | cons b' bs =>
    obtain ⟨w, hw⟩ := closing_start b' bs (hp b' (by simp))
    have : u = lines b.own ++ ((if b.own.isEmpty then [] else ['\n']) ++ closing (b' :: bs)) := by
      rw [closing_cons] at hu
      unfold Block.text at hu
      simp only [List.append_assoc] at hu
      exact (List.append_cancel_left hu).symm
    subst this
    rw [hw] at hf ⊢
    simp only [List.length_append] at hf
    have := readLines b.own f ((if b.own.isEmpty then [] else ['\n']) ++ '[' :: w) w [] hb.nodup hb.own_keys (by simp)
      hb.own_values (by omega) (by cases b.own.isEmpty <;> simp)
    simpa using this

theorem readTables_blocks (bs : List Block) : ∀ (f n : Nat) (D : List (Text × TV)), (∀ b ∈ bs, GoodBlock b) →
    (∀ b ∈ bs, b.path ≠ []) → NoLastInt bs → (∀ b, bs.getLast? = some b → b.own ≠ []) → bs.length < n →
    4 * (closing bs).length + 4 ≤ f → readTables f n (closing bs) D = bs.foldlM stepBlock D := by
  induction bs with
  | nil =>
    intro f n D _ _ _ _ hn _
    cases n with
    | zero => simp at hn
    | succ n => unfold readTables; simp [closing, nonData]
  | cons b bs ih =>
    intro f n D hg hp hi hl hn hf
    cases n with
    | zero => simp at hn
    | succ n =>
      have hpb := hp b (by simp)
      obtain ⟨w, hw⟩ := closing_start b bs hpb
      have hu : ∃ u, closing (b :: bs) = writeHeader b.item b.path ++ u := by
        cases bs with
        | nil => exact ⟨_, rfl⟩
        | cons b' bs => rw [closing_cons]; unfold Block.text; simp only [List.append_assoc]; exact ⟨_, rfl⟩
      obtain ⟨u, hu⟩ := hu
      have hle : (closing bs).length ≤ (closing (b :: bs)).length := by
        cases bs with
        | nil => simp [closing]
        | cons b' bs => rw [closing_cons]; simp
      have hown := readOwn b bs f (hg b (by simp)) (fun x hx => hp x (List.mem_cons_of_mem _ hx)) hi u hu (by
        rw [hu] at hf; simp at hf; omega)
      have htab : readTable f (closing (b :: bs)) =
          some (b.path.map .key ++ (if b.item then [.item] else []), b.own, closing bs) := by
        unfold readTable
        rw [hu, readKey_header b.item b.path u hpb (hg b (by simp)).keys]
        simp only [hown, Option.map_some, fullKey_item]
      unfold readTables
      rw [nonData_solid (nl := true) ⟨'[', w, hw, by decide, by decide⟩, htab]
      rw [hw]
      simp only [List.foldlM_cons]
      show (match stepBlock D b with | none => none | some data => readTables f n (closing bs) data) = _
      cases hs : stepBlock D b with
      | none => rfl
      | some D' =>
        simp only
        refine ih f n D' (fun x hx => hg x (List.mem_cons_of_mem _ hx)) (fun x hx => hp x (List.mem_cons_of_mem _ hx)) ?_ ?_
          (by simp at hn; omega) (by omega)
        · cases bs with
          | nil => intro x e n hx; simp at hx
          | cons b' bs => exact noLastInt_tail hi
        · intro x hx
          cases bs with
          | nil => simp at hx
          | cons b' bs => apply hl x; rw [List.getLast?_cons_cons]; exact hx

theorem closing_length (bs : List Block) (hp : ∀ b ∈ bs, b.path ≠ []) : bs.length ≤ (closing bs).length := by
  induction bs with
  | nil => simp
  | cons b bs ih =>
    cases bs with
    | nil =>
      obtain ⟨w, hw⟩ := closing_start b [] (hp b (by simp))
      rw [hw]; simp
    | cons b' bs =>
      have hh := ih (fun x hx => hp x (List.mem_cons_of_mem _ hx))
      rw [closing_cons]
      have : 0 < b.text.length := by
        obtain ⟨u, hu⟩ := header_start b.item b.path (hp b (by simp))
        unfold Block.text; rw [hu]; simp
      rw [List.length_append, List.length_cons]
      omega

/-- Reading the written text. -/
theorem loads_blocks (b : Block) (bs : List Block) (hb : b.path = []) (hg : ∀ x ∈ b :: bs, GoodBlock x)
    (hp : ∀ x ∈ bs, x.path ≠ []) (hi : NoLastInt (b :: bs)) (hl : ∀ x, bs.getLast? = some x → x.own ≠ []) :
    loads (closing (b :: bs)) = bs.foldlM stepBlock b.own := by
  have hhead : writeHeader b.item b.path = [] := by rw [hb]; rfl
  have hnd : nonData true false (closing (b :: bs)) = some (closing (b :: bs)) ∨
      (∃ c u, closing (b :: bs) = c :: u ∧ b.own = [] ∧ bs = []) ∨ closing (b :: bs) = [] := by
    cases ho : b.own with
    | nil =>
      cases bs with
      | nil => right; right; simp [closing, hhead, ho, lastLines]
      | cons b' bs =>
        obtain ⟨w, hw⟩ := closing_start b' bs (hp b' (by simp))
        left
        apply nonData_solid
        rw [closing_cons]
        unfold Block.text
        rw [hhead, ho, hw]
        exact ⟨'[', w, by simp [lines], by decide, by decide⟩
    | cons e es =>
      left
      apply nonData_solid
      have hs : Solid (line e) := by unfold line; exact ((writeKeyPart_solid e.1).append).append
      cases bs with
      | nil =>
        simp only [closing, hhead, ho, List.nil_append]
        cases es with
        | nil => exact hs
        | cons e' es => rw [lastLines_cons]; exact (hs.append).append
      | cons b' bs =>
        rw [closing_cons]
        unfold Block.text
        rw [hhead, ho]
        simp only [lines, List.nil_append, List.append_assoc]
        exact hs.append
  have hnd : nonData true false (closing (b :: bs)) = some (closing (b :: bs)) := by
    rcases hnd with h | ⟨c, u, h, ho, rfl⟩ | h
    · exact h
    · simp [closing, hhead, ho, lastLines] at h
    · rw [h]; rfl
  have hle : (closing bs).length ≤ (closing (b :: bs)).length := by
    cases bs with
    | nil => simp [closing]
    | cons b' bs => rw [closing_cons]; simp
  unfold loads
  rw [hnd]
  simp only
  rw [readOwn b bs _ (hg b (by simp)) hp hi (closing (b :: bs)) (by rw [hhead]; rfl) (by omega)]
  simp only
  refine readTables_blocks bs _ _ b.own (fun x hx => hg x (List.mem_cons_of_mem _ hx)) hp ?_ hl ?_ (by omega)
  · cases bs with
    | nil => intro x e n hx; simp at hx
    | cons b' bs => exact noLastInt_tail hi
  · have := closing_length bs hp; omega

end Toml
end Pkm
