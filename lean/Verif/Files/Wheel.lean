import Verif.Files.CopyProps
import Verif.Files.Props
set_option linter.unusedVariables false
set_option linter.unusedSimpArgs false
set_option linter.unusedSectionVars false
/-
Verification of wheels and the RECORD file of installed packages.

Modelled: `_verify_records` (pkm/src/pkm/api/distributions/wheel_distribution.py 198-220, "wd") and
`RecordsFileConfiguration.sign_files` (pkm/src/pkm/api/distributions/distinfo.py 281-315, "di").
Hash functions are parameters.
-/
namespace Pkm
namespace Files

variable {C S : Type}

/-- A line of RECORD (di 264-272). -/
structure Rec (S : Type) where
  file : Text
  sig : Option S

inductive VerifyError where
  /-- `InstallationException`: no RECORD -/
  | noRecord
  /-- `InstallationException`: signature not matched -/
  | mismatch (file : Path)
  /-- `InstallationException`: file without signature -/
  | unsigned (file : Path)
  /-- `KeyError`: hash function not supported -/
  | unknownHash (file : Path)
  deriving DecidableEq, Repr

/-- `{r.file: r for r in records}.get(path)` (wd 204): the last record of the path. -/
def recordFor (records : List (Rec S)) (path : Text) : Option (Rec S) :=
  Dict.get (records.foldl (fun d r => Dict.put d r.file r) ([] : Dict Text (Rec S))) path

/-- `str(path_to(content, file))` (wd 209) for a file below `content`. -/
def pathIn (content file : Path) : Option Text := pathTo (content.length + 1) content file

def endsWith (suffix t : Text) : Bool := suffix.isSuffixOf t

/-- `any(it.name.endswith('.dist-info') for it in file.parents)` (wd 212). -/
def underDistInfo : Path → Bool
  | [] => false
  | _ :: p => p.any (endsWith ".dist-info".toList)

/-- One round of the loop of `_verify_records` (wd 205-220): whether a warning is issued. `valid` is
`validate_against`: `none` for an unsupported hash function. -/
def verifyFile (valid : S → C → Option Bool) (content distInfo : Path) (records : List (Rec S)) (file : Path) (c : C) :
    Except VerifyError Bool :=
  match (pathIn content file).bind (fun t => (recordFor records t).bind (·.sig)) with
  | some sig =>
    match valid sig c with
    | none => .error (.unknownHash file)
    | some true => .ok false
    | some false => if underDistInfo file then .ok true else .error (.mismatch file)
  | none => if file = "RECORD".toList :: distInfo then .ok false else .error (.unsigned file)

/-- The loop (wd 205-220): the files for which a warning is issued. -/
def verifyLoop (valid : S → C → Option Bool) (content distInfo : Path) (records : List (Rec S)) :
    List (Path × C) → Except VerifyError (List Path)
  | [] => .ok []
  | (file, c) :: rest =>
    match verifyFile valid content distInfo records file c with
    | .error e => .error e
    | .ok w =>
      match verifyLoop valid content distInfo records rest with
      | .error e => .error e
      | .ok ws => .ok (if w then file :: ws else ws)

/-- `_verify_records` (wd 198-220). `files`: `content.rglob("*")` without the directories. -/
def verifyRecords (valid : S → C → Option Bool) (content distInfo : Path) (recordExists : Bool)
    (records : List (Rec S)) (files : List (Path × C)) : Except VerifyError (List Path) :=
  if recordExists then verifyLoop valid content distInfo records files else .error .noRecord

/-- `sign_files` (di 281-306): the new records. The lengths of files are not modelled. `path_to` ends
unless the file is the root of the file system (`path_to_leads_partial`). -/
def signFiles (precomputed : Dict Text S) (hash : C → S) (fs : FS C) (root : Path) : List Path → List (Rec S)
  | [] => []
  | file :: files =>
    match Dict.get fs file with
    | some (.file c) =>
      match pathIn root file with
      | some t => ⟨t, some ((Dict.get precomputed t).getD (hash c))⟩ :: signFiles precomputed hash fs root files
      | none => signFiles precomputed hash fs root files
    | _ => signFiles precomputed hash fs root files

/-- `{r.file: r.hash_signature for r in records if r.hash_signature}` (wd 148-150). -/
def precomputedOf (records : List (Rec S)) : Dict Text S :=
  records.foldl (fun d r => match r.sig with
    | some s => Dict.put d r.file s
    | none => d) []

end Files

namespace Spec
open Files
variable {C S : Type}

/-- RECORD gives a path the signature `s`: the last line for the path. -/
def SignedAs (records : List (Rec S)) (path : Text) (s : S) : Prop :=
  ∃ before after, records = before ++ ⟨path, some s⟩ :: after ∧ ∀ r ∈ after, r.file ≠ path

/-- The text under which a file of a wheel is recorded: its path below the content directory, the
components separated by slashes. -/
def recordName (content file : Path) (t : Text) : Prop :=
  ∃ r : List Text, r ≠ [] ∧ file = r.reverse ++ content ∧ t = joinSlash r

/-- Some directory above the file has a name that ends in `.dist-info`. -/
def BelowDistInfo (file : Path) : Prop :=
  ∃ d ∈ file.tail, ∃ x : Text, d = x ++ ".dist-info".toList

end Spec
open Spec Files Files.FS
variable {C S : Type}

namespace Files

theorem pathIn_below (content : Path) (r : Path) (hr : r ≠ []) :
    pathIn content (r ++ content) = some (joinSlash r.reverse) := by
  unfold pathIn pathTo
  cases hl : content.length + 1 with
  | zero => simp at hl
  | succ n =>
    unfold pathToLoop
    have h1 : r ++ content ≠ content := by
      intro e
      have := congrArg List.length e
      simp at this
      exact hr this
    have h2 : content.isSuffixOf (r ++ content) = true := by
      rw [List.isSuffixOf_iff_suffix]; exact List.suffix_append _ _
    rw [if_pos ⟨h1, h2⟩]
    simp

theorem foldl_put_get (records : List (Rec S)) : ∀ (d : Dict Text (Rec S)) (path : Text),
    Dict.get (records.foldl (fun d r => Dict.put d r.file r) d) path =
      match records.reverse.find? (fun r => r.file = path) with
      | some r => some r
      | none => Dict.get d path := by
  induction records with
  | nil => intro d path; rfl
  | cons r records ih =>
    intro d path
    rw [List.foldl_cons, ih]
    simp only [List.reverse_cons, List.find?_append]
    cases e : records.reverse.find? (fun r => decide (r.file = path)) with
    | some x => simp
    | none =>
      simp only [Option.none_or]
      rw [Dict.get_put]
      by_cases hr : r.file = path
      · simp [hr]
      · simp [hr]

theorem recordFor_sig (records : List (Rec S)) (path : Text) (s : S) :
    (recordFor records path).bind (·.sig) = some s ↔ SignedAs records path s := by
  unfold recordFor
  rw [foldl_put_get]
  unfold SignedAs
  constructor
  · intro h
    cases e : records.reverse.find? (fun r => decide (r.file = path)) with
    | none => rw [e] at h; simp [Dict.get] at h
    | some r =>
      rw [e] at h
      simp at h
      rw [List.find?_eq_some_iff_append] at e
      obtain ⟨h1, a, b, h2, h3⟩ := e
      simp at h1
      refine ⟨b.reverse, a.reverse, ?_, ?_⟩
      · have := congrArg List.reverse h2
        simp at this
        rw [this]
        cases r
        simp only at h h1
        subst h; subst h1
        rfl
      · intro x hx
        have := h3 x (by simpa using hx)
        simpa using this
  · rintro ⟨a, b, rfl, h⟩
    have : (a ++ ({ file := path, sig := some s } : Rec S) :: b).reverse.find? (fun r => decide (r.file = path)) =
        some { file := path, sig := some s } := by
      rw [List.find?_eq_some_iff_append]
      refine ⟨by simp, b.reverse, a.reverse, by simp, ?_⟩
      intro x hx
      simpa using h x (by simpa using hx)
    rw [this]
    rfl

theorem underDistInfo_iff (file : Path) : underDistInfo file = true ↔ BelowDistInfo file := by
  unfold BelowDistInfo
  cases file with
  | nil => simp [underDistInfo]
  | cons x p =>
    simp only [underDistInfo, List.any_eq_true, List.tail_cons, endsWith, List.isSuffixOf_iff_suffix]
    constructor
    · rintro ⟨d, hd, y, hy⟩; exact ⟨d, hd, y, hy.symm⟩
    · rintro ⟨d, hd, y, hy⟩; exact ⟨d, hd, y, hy.symm⟩

theorem verifyLoop_ok (valid : S → C → Option Bool) (content distInfo : Path) (records : List (Rec S)) :
    ∀ (files : List (Path × C)), (∃ ws, verifyLoop valid content distInfo records files = .ok ws) ↔
      ∀ e ∈ files, ∃ w, verifyFile valid content distInfo records e.1 e.2 = .ok w := by
  intro files
  induction files with
  | nil => simp [verifyLoop]
  | cons e files ih =>
    obtain ⟨f, c⟩ := e
    unfold verifyLoop
    simp only [List.mem_cons, forall_eq_or_imp]
    rw [← ih]
    cases h1 : verifyFile valid content distInfo records f c with
    | error x => simp
    | ok w =>
      cases h2 : verifyLoop valid content distInfo records files with
      | error x => simp
      | ok ws => simp

theorem verifyLoop_warn (valid : S → C → Option Bool) (content distInfo : Path) (records : List (Rec S)) :
    ∀ (files : List (Path × C)) (ws : List Path), verifyLoop valid content distInfo records files = .ok ws →
      ∀ f, f ∈ ws ↔ ∃ c, (f, c) ∈ files ∧ verifyFile valid content distInfo records f c = .ok true := by
  intro files
  induction files with
  | nil => intro ws h; simp [verifyLoop] at h; subst h; simp
  | cons e files ih =>
    intro ws h f
    obtain ⟨g, c⟩ := e
    unfold verifyLoop at h
    cases h1 : verifyFile valid content distInfo records g c with
    | error x => rw [h1] at h; simp at h
    | ok w =>
      rw [h1] at h
      cases h2 : verifyLoop valid content distInfo records files with
      | error x => rw [h2] at h; simp at h
      | ok ws' =>
        rw [h2] at h
        simp at h
        have ih' := ih ws' h2 f
        subst h
        cases w with
        | true =>
          simp only [if_true, List.mem_cons, ih']
          constructor
          · rintro (rfl | ⟨d, a, b⟩)
            · exact ⟨c, Or.inl rfl, h1⟩
            · exact ⟨d, Or.inr a, b⟩
          · rintro ⟨d, a | a, b⟩
            · simp at a; exact Or.inl a.1
            · exact Or.inr ⟨d, a, b⟩
        | false =>
          simp only [Bool.false_eq_true, if_false, List.mem_cons, ih']
          constructor
          · rintro ⟨d, a, b⟩
            exact ⟨d, Or.inr a, b⟩
          · rintro ⟨d, a | a, b⟩
            · simp at a
              obtain ⟨rfl, rfl⟩ := a
              rw [h1] at b; simp at b
            · exact ⟨d, a, b⟩

end Files

/-! ## C25 -/

/-- What verification requires of a file: a matching signature, or a not matching one somewhere below a
`.dist-info` directory, or to be RECORD itself without a signature. -/
def Spec.FileVerified (valid : S → C → Option Bool) (distInfo : Path) (records : List (Rec S)) (t : Text) (file : Path)
    (c : C) : Prop :=
  (∃ s, SignedAs records t s ∧ (valid s c = some true ∨ (valid s c = some false ∧ BelowDistInfo file))) ∨
  ((∀ s, ¬ SignedAs records t s) ∧ file = "RECORD".toList :: distInfo)

/-- C25: verification succeeds exactly if RECORD exists and every file of the wheel is as required. -/
theorem verify_iff (valid : S → C → Option Bool) (content distInfo : Path) (recordExists : Bool)
    (records : List (Rec S)) (files : List (Path × C))
    (hin : ∀ e ∈ files, content <:+ e.1 ∧ e.1 ≠ content) :
    (∃ ws, verifyRecords valid content distInfo recordExists records files = .ok ws) ↔
      recordExists = true ∧ ∀ e ∈ files, ∀ t, recordName content e.1 t →
        FileVerified valid distInfo records t e.1 e.2 := by
  unfold verifyRecords
  cases recordExists with
  | false => simp
  | true =>
    simp only [if_true, true_and]
    rw [verifyLoop_ok]
    refine forall_congr' (fun e => ?_)
    refine forall_congr' (fun he => ?_)
    obtain ⟨hs, hne⟩ := hin e he
    obtain ⟨r, hr⟩ := hs
    have hr0 : r ≠ [] := by rintro rfl; exact hne (by simpa using hr.symm)
    have hp : pathIn content e.1 = some (joinSlash r.reverse) := by rw [← hr]; exact pathIn_below content r hr0
    have huniq : ∀ t, recordName content e.1 t ↔ t = joinSlash r.reverse := by
      intro t
      constructor
      · rintro ⟨q, hq, h1, rfl⟩
        rw [← hr] at h1
        have := List.append_cancel_right h1
        rw [this]; simp
      · rintro rfl
        exact ⟨r.reverse, by simpa using hr0, by simp [hr], rfl⟩
    simp only [huniq, forall_eq]
    unfold verifyFile FileVerified
    rw [hp]
    simp only [Option.bind_some]
    cases h : (recordFor records (joinSlash r.reverse)).bind (·.sig) with
    | some s =>
      have h' := (recordFor_sig _ _ _).1 h
      have hu : ∀ s', SignedAs records (joinSlash r.reverse) s' ↔ s' = s := by
        intro s'
        rw [← recordFor_sig, h]
        simp [eq_comm]
      simp only [hu, exists_eq_left]
      have : ¬ ((∀ s', ¬ s' = s) ∧ e.1 = "RECORD".toList :: distInfo) := fun h => h.1 s rfl
      simp only [this, or_false]
      cases hv : valid s e.2 with
      | none => simp
      | some b =>
        cases b with
        | true => simp
        | false =>
          rw [← underDistInfo_iff]
          cases underDistInfo e.1 <;> simp
    | none =>
      have hu : ∀ s', ¬ SignedAs records (joinSlash r.reverse) s' := by
        intro s'
        rw [← recordFor_sig, h]; simp
      simp only [hu, false_and, exists_false, false_or, not_false_eq_true, implies_true, true_and]
      by_cases e' : e.1 = "RECORD".toList :: distInfo
      · simp only [e', if_true, Except.ok.injEq, exists_eq']
      · simp only [e', if_false, reduceCtorEq, exists_false]

/-- C25: full statement: a wheel is only accepted if every file but RECORD has a matching signature.
Proved for the files that are not below a `.dist-info` directory; for the others a wrong signature only
gives a warning (`verify_dist_info_violated`). -/
theorem verify_sound_partial (valid : S → C → Option Bool) (content distInfo : Path) (recordExists : Bool)
    (records : List (Rec S)) (files : List (Path × C)) (ws : List Path)
    (h : verifyRecords valid content distInfo recordExists records files = .ok ws)
    (r : Path) (c : C) (hr : r ≠ []) (hf : (r ++ content, c) ∈ files)
    (hrec : r ++ content ≠ "RECORD".toList :: distInfo) (hd : ¬ BelowDistInfo (r ++ content)) :
    ∃ s, SignedAs records (joinSlash r.reverse) s ∧ valid s c = some true := by
  unfold verifyRecords at h
  cases recordExists with
  | false => simp at h
  | true =>
    simp only [if_true] at h
    obtain ⟨w, hw⟩ := (verifyLoop_ok valid content distInfo records files).1 ⟨ws, h⟩ _ hf
    unfold verifyFile at hw
    simp only at hw
    rw [pathIn_below content r hr] at hw
    simp only [Option.bind_some] at hw
    cases h : (recordFor records (joinSlash r.reverse)).bind (·.sig) with
    | none => rw [h] at hw; simp only [hrec, if_false, reduceCtorEq] at hw
    | some s =>
      rw [h] at hw
      refine ⟨s, (recordFor_sig _ _ _).1 h, ?_⟩
      simp only at hw
      rw [← underDistInfo_iff] at hd
      cases hv : valid s c with
      | none => rw [hv] at hw; simp at hw
      | some b =>
        cases b with
        | true => rfl
        | false => rw [hv] at hw; simp [hd] at hw

/-- C25: a file whose content does not match is accepted with a warning and only with a warning. -/
theorem verify_warns (valid : S → C → Option Bool) (content distInfo : Path) (recordExists : Bool)
    (records : List (Rec S)) (files : List (Path × C)) (ws : List Path)
    (h : verifyRecords valid content distInfo recordExists records files = .ok ws)
    (r : Path) (c : C) (hr : r ≠ []) (hf : (r ++ content, c) ∈ files)
    (s : S) (hs : SignedAs records (joinSlash r.reverse) s) (hv : valid s c = some false) :
    r ++ content ∈ ws := by
  unfold verifyRecords at h
  cases recordExists with
  | false => simp at h
  | true =>
    simp only [if_true] at h
    rw [verifyLoop_warn valid content distInfo records files ws h]
    refine ⟨c, hf, ?_⟩
    obtain ⟨w, hw⟩ := (verifyLoop_ok valid content distInfo records files).1 ⟨ws, h⟩ _ hf
    simp only at hw
    rw [hw]
    unfold verifyFile at hw
    rw [pathIn_below content r hr] at hw
    simp only [Option.bind_some] at hw
    rw [(recordFor_sig _ _ _).2 hs] at hw
    simp only [hv] at hw
    split at hw
    · simp at hw; rw [hw]
    · simp at hw

/-! ## RECORD of an installed package -/

namespace Files

theorem mem_signFiles (pre : Dict Text S) (hash : C → S) (fs : FS C) (root : Path) (r : Rec S) :
    ∀ files : List Path, r ∈ signFiles pre hash fs root files ↔
      ∃ f ∈ files, ∃ c t, Dict.get fs f = some (.file c) ∧ pathIn root f = some t ∧
        r = ⟨t, some ((Dict.get pre t).getD (hash c))⟩ := by
  intro files
  induction files with
  | nil => simp [signFiles]
  | cons f files ih =>
    unfold signFiles
    cases h1 : Dict.get fs f with
    | none => simp [ih, h1]
    | some n =>
      cases n with
      | dir => simp [ih, h1]
      | file c =>
        cases h2 : pathIn root f with
        | none => simp [ih, h1, h2]
        | some t => simp [ih, h1, h2]

end Files

/-- C55 (RECORD): the new records are one for every existing file among the given ones; it leads from the
site to the file. -/
theorem sign_files_records (pre : Dict Text S) (hash : C → S) (fs : FS C) (root : Path) (files : List Path)
    (hn : ∀ f ∈ files, f ≠ [] ∧ ∀ c ∈ f, ValidName c) (p : Path) :
    (∃ r ∈ signFiles pre hash fs root files, resolveFrom root r.file = p) ↔
      p ∈ files ∧ ∃ c, Dict.get fs p = some (.file c) := by
  constructor
  · rintro ⟨r, hr, hp⟩
    rw [mem_signFiles] at hr
    obtain ⟨f, hf, c, t, h1, h2, rfl⟩ := hr
    obtain ⟨t', h3, h4⟩ := path_to_leads_partial root f (hn f hf).1 (hn f hf).2 (root.length + 1) (by omega)
    unfold pathIn at h2
    rw [h3] at h2
    simp at h2
    subst h2
    simp only at hp
    rw [h4] at hp
    subst hp
    exact ⟨hf, c, h1⟩
  · rintro ⟨hf, c, hc⟩
    obtain ⟨t, h3, h4⟩ := path_to_leads_partial root p (hn p hf).1 (hn p hf).2 (root.length + 1) (by omega)
    refine ⟨⟨t, some ((Dict.get pre t).getD (hash c))⟩, ?_, h4⟩
    rw [mem_signFiles]
    exact ⟨p, hf, c, t, hc, h3, rfl⟩

/-- C55 (RECORD): without precomputed hashes, the signature of a record is that of the file it leads to. -/
theorem sign_files_signature_partial (pre : Dict Text S) (hash : C → S) (fs : FS C) (root : Path) (files : List Path)
    (hn : ∀ f ∈ files, f ≠ [] ∧ ∀ c ∈ f, ValidName c) (r : Rec S) (hr : r ∈ signFiles pre hash fs root files)
    (hpre : ∀ t s, Dict.get pre t = some s → ∀ c, Dict.get fs (resolveFrom root t) = some (.file c) → s = hash c) :
    ∃ c, Dict.get fs (resolveFrom root r.file) = some (.file c) ∧ r.sig = some (hash c) := by
  rw [mem_signFiles] at hr
  obtain ⟨f, hf, c, t, h1, h2, rfl⟩ := hr
  obtain ⟨t', h3, h4⟩ := path_to_leads_partial root f (hn f hf).1 (hn f hf).2 (root.length + 1) (by omega)
  unfold pathIn at h2
  rw [h3] at h2
  simp at h2
  subst h2
  refine ⟨c, by rw [h4]; exact h1, ?_⟩
  simp only
  cases e : Dict.get pre t' with
  | none => rfl
  | some s => simp [hpre t' s e c (by rw [h4]; exact h1)]

/-- C55: full statement: uninstalling what was installed leaves nothing of the package. Proved for what
becomes of files: the wheel is installed by the steps of a copy transaction (`body`), the created files are
recorded relative to the site, further files are written to the dist-info directory (`more`), and the
package is uninstalled. Then there is no file that was not there before. -/
theorem install_uninstall_partial (empty : C) (pick : List Path → Nat) (body : List (Call C)) (fs0 fs2 fs3 : FS C)
    (t1 : Txn C) (distInfo : Path) (order : List Path → List Path) (hord : ∀ l p, p ∈ order l ↔ p ∈ l)
    (pre : Dict Text S) (hash : C → S)
    (hg : Good fs0) (hw : ∀ p d, Call.write p d ∉ body)
    (hrun : Txn.run empty body ⟨fs0, [], []⟩ = .ok t1)
    (hn : ∀ p ∈ t1.copied, p ≠ [] ∧ ∀ c ∈ p, ValidName c)
    (more : ∀ p, Dict.get fs2 p ≠ Dict.get t1.fs p → distInfo <:+ p) (htree : Tree fs2)
    (hun : uninstall pick distInfo ((signFiles pre hash t1.fs (parent distInfo) (order t1.copied)).map (·.file)) fs2
      = some fs3) (p : Path) (c : C) (hp : Dict.get fs3 p = some (.file c)) :
    Dict.get fs0 p ≠ none := by
  intro h0
  have hc := (copied_files_complete empty body _ t1 hg hw hrun).2.1 p h0
  obtain ⟨hr1, hr2⟩ := uninstall_removes_recorded pick distInfo _ fs2 fs3 htree hun
  have hsub := (uninstall_touches_only_partial pick distInfo _ fs2 fs3 hun).1 p _ hp
  have hnd : ¬ distInfo <:+ p := by
    intro h
    rw [hr2 p h] at hp; simp at hp
  have h1 : Dict.get t1.fs p = some (.file c) := by
    cases Classical.em (Dict.get fs2 p = Dict.get t1.fs p) with
    | inl e => rw [← e]; exact hsub
    | inr e => exact absurd (more p e) hnd
  have hcp : p ∈ t1.copied := hc (by rw [h1]; simp)
  obtain ⟨r, hr, hres⟩ := (sign_files_records pre hash t1.fs (parent distInfo) (order t1.copied)
    (fun f hf => hn f ((hord _ _).1 hf)) p).2 ⟨(hord _ _).2 hcp, c, h1⟩
  have : Recorded distInfo ((signFiles pre hash t1.fs (parent distInfo) (order t1.copied)).map (·.file)) p :=
    Or.inl ⟨r.file, List.mem_map.2 ⟨r, hr, rfl⟩, hres.symm⟩
  rw [hr1 p this] at hp
  simp at hp


/-! ### Examples and violations -/

namespace Files.WheelExample

def n (s : String) : Text := s.toList
def content : Path := [n "tmp"]
def di : Path := [n "p-1.dist-info", n "tmp"]
/-- A signature is the content itself. -/
def valid (s c : Nat) : Option Bool := some (s == c)
def recs : List (Rec Nat) :=
  [⟨n "p/a.py", some 1⟩, ⟨n "p-1.dist-info/METADATA", some 2⟩, ⟨n "p-1.dist-info/RECORD", none⟩]
def files : List (Path × Nat) :=
  [([n "a.py", n "p", n "tmp"], 1), ([n "METADATA", n "p-1.dist-info", n "tmp"], 2),
   ([n "RECORD", n "p-1.dist-info", n "tmp"], 3)]

/-- A correct wheel is accepted, without RECORD or with a changed or an additional file it is not. -/
example : verifyRecords valid content di true recs files = .ok [] ∧
    verifyRecords valid content di false recs files = .error .noRecord ∧
    verifyRecords valid content di true recs (([n "a.py", n "p", n "tmp"], 7) :: files)
      = .error (.mismatch [n "a.py", n "p", n "tmp"]) ∧
    verifyRecords valid content di true recs (([n "b.py", n "p", n "tmp"], 7) :: files)
      = .error (.unsigned [n "b.py", n "p", n "tmp"]) := ⟨rfl, rfl, rfl, rfl⟩

example : ∀ e ∈ files, content <:+ e.1 ∧ e.1 ≠ content := by decide

example : SignedAs recs (n "p/a.py") 1 := ⟨[], recs.tail, rfl, by decide⟩

/-- An installation into the site `s`. -/
def fs0 : FS Nat := [([], .dir), ([n "s"], .dir)]
def body : List (Call Nat) :=
  [.copy (.file 1) [n "a.py", n "p", n "s"], .copy (.file 2) [n "METADATA", n "p-1.dist-info", n "s"]]
def t1 : Txn Nat := (Txn.run 0 body ⟨fs0, [], []⟩).state
def records : List (Rec Nat) := signFiles [] id t1.fs [n "s"] t1.copied

/-- The hypotheses of `install_uninstall_partial` can be met, and afterwards the state is the old one. -/
example : Txn.run 0 body ⟨fs0, [], []⟩ = .ok t1 ∧
    records.map (·.file) = [n "p/a.py", n "p-1.dist-info/METADATA"] ∧
    ((uninstall (fun _ => 0) [n "p-1.dist-info", n "s"] (records.map (·.file))
      (Dict.put t1.fs [n "INSTALLER", n "p-1.dist-info", n "s"] (.file 9))).map
        (fun fs => [Dict.get fs [n "a.py", n "p", n "s"], Dict.get fs [n "p", n "s"],
          Dict.get fs [n "p-1.dist-info", n "s"], Dict.get fs [n "s"]])) =
      some [none, none, none, some .dir] := ⟨rfl, by decide, by decide⟩

end Files.WheelExample
section
open Files.WheelExample

/-- C25 fails: a changed METADATA is accepted. -/
theorem verify_dist_info_violated :
    SignedAs recs (n "p-1.dist-info/METADATA") 2 ∧ valid 2 7 = some false ∧
    ∃ ws, verifyRecords valid content di true recs (([n "METADATA", n "p-1.dist-info", n "tmp"], 7) :: files) = .ok ws :=
  ⟨⟨recs.take 1, recs.drop 2, rfl, by decide⟩, rfl, _, rfl⟩

/-- C25 fails: so is a changed module, if any directory above it is named `*.dist-info`. -/
theorem verify_nested_violated :
    ∃ ws, verifyRecords valid content di true (⟨n "p/x.dist-info/evil.py", some 1⟩ :: recs)
      (([n "evil.py", n "x.dist-info", n "p", n "tmp"], 7) :: files) = .ok ws := ⟨_, rfl⟩

/-- C55 (RECORD) fails with the precomputed hashes of a wheel: the wheel's RECORD is only checked for files
of the wheel, a line for another file is taken over for a file that the installation generates. -/
theorem sign_files_signature_violated :
    (∃ ws, verifyRecords valid content di true (⟨n "../bin/tool", some 5⟩ :: recs) files = .ok ws) ∧
    (signFiles (precomputedOf (⟨n "../bin/tool", some 5⟩ :: recs)) id
      [([], .dir), ([n "bin"], .dir), ([n "tool", n "bin"], .file 8)] [n "s"] [[n "tool", n "bin"]]).map (·.sig) = [some 5] :=
  ⟨⟨_, rfl⟩, rfl⟩
end

end Pkm
