import Verif.Files.WheelInstallRecord
set_option linter.unusedVariables false
set_option linter.unusedSimpArgs false
set_option linter.unusedSectionVars false
/-
C96: wheels that are not installed, and what a failure leaves.
-/
namespace Pkm
open Tags Files Files.FS WheelInstall Spec

variable {C S : Type}

namespace WheelInstall

/-! ### kinds of data -/

theorem dataCalls_kinds (tg : Target) (patch : C → C) (dir : Path) : ∀ (es : Sources C), Call.fail ∉ dataCalls tg patch dir es →
    ∀ r k c, FileIn es (r ++ [k]) c → r ≠ [] ∧ ∃ q, KindPlace tg k q
  | .nil, _, r, k, c, h => by generalize hr : r ++ [k] = r' at h; cases h
  | .cons n s rest, hf, r, k, c, h => by
    rw [dataCalls] at hf
    cases hsc : schemeOf tg n with
    | none => rw [hsc] at hf; simp at hf
    | some p =>
      rw [hsc] at hf
      cases s with
      | file d => simp at hf
      | dir es =>
        simp only at hf
        have hf2 : Call.fail ∉ dataCalls tg patch dir rest := fun x => hf (List.mem_append.2 (.inr x))
        rcases fileIn_cons h with ⟨h1, _⟩ | ⟨es', r', h1, h2, h3⟩ | h
        · cases h1
        · obtain ⟨rfl, rfl⟩ := append_singleton_inj h2
          exact ⟨FileIn.ne_nil h3, p, (schemeOf_iff _ _ _).1 hsc⟩
        · exact dataCalls_kinds tg patch dir rest hf2 r k c h

theorem contentCalls_kinds (tg : Target) (patch : C → C) (content site : Path) (stem : Text) : ∀ (tree : Sources C),
    Call.fail ∉ contentCalls tg patch content site (stem ++ distInfoExt) tree →
    ∀ r k c, FileIn tree (r ++ [k, stem ++ t!".data"]) c → r ≠ [] ∧ ∃ q, KindPlace tg k q
  | .nil, _, r, k, c, h => by generalize hr : r ++ [k, stem ++ t!".data"] = r' at h; cases h
  | .cons n (.file d) rest, hf, r, k, c, h => by
    rw [contentCalls] at hf
    rcases fileIn_cons h with ⟨_, h1⟩ | ⟨es', r', h1, _⟩ | h
    · have := congrArg List.length h1
      simp at this
    · cases h1
    · exact contentCalls_kinds tg patch content site stem rest (fun x => hf (List.mem_cons_of_mem _ x)) r k c h
  | .cons n (.dir es) rest, hf, r, k, c, h => by
    rw [contentCalls] at hf
    rcases fileIn_cons h with ⟨h1, _⟩ | ⟨es', r', h1, h2, h3⟩ | h
    · cases h1
    · have h2' : (r ++ [k]) ++ [stem ++ t!".data"] = r' ++ [n] := by rw [← h2]; simp
      obtain ⟨rfl, rfl⟩ := append_singleton_inj h2'
      simp only [Source.dir.injEq] at h1
      subst h1
      rw [dataName_stem, if_pos rfl] at hf
      exact dataCalls_kinds tg patch _ es (fun x => hf (List.mem_append.2 (.inl x))) r k c h3
    · exact contentCalls_kinds tg patch content site stem rest (fun x => hf (List.mem_append.2 (.inr x))) r k c h

/-! ### wheels without data -/

theorem contentCalls_targets (tg : Target) (patch : C → C) (content site : Path) (di : Text) : ∀ (tree : Sources C),
    dataName di ∉ names tree → ∀ x ∈ contentCalls tg patch content site di tree,
      tracked x = true ∧ ∃ name ∈ names tree, ∃ r, target x = some (r ++ name :: site)
  | .nil, _, x, h => by simp [contentCalls] at h
  | .cons n (.file c) rest, hn, x, h => by
    rw [contentCalls] at h
    simp only [names, List.mem_cons, not_or] at hn
    rcases List.mem_cons.1 h with rfl | h
    · exact ⟨rfl, n, by simp [names], [], rfl⟩
    · obtain ⟨a, m, b, c⟩ := contentCalls_targets tg patch content site di rest hn.2 x h
      exact ⟨a, m, by simp [names, b], c⟩
  | .cons n (.dir es) rest, hn, x, h => by
    rw [contentCalls] at h
    simp only [names, List.mem_cons, not_or] at hn
    rw [if_neg (fun e => hn.1 e.symm)] at h
    rcases List.mem_append.1 h with h | h
    · unfold copyTree at h
      rcases List.mem_cons.1 h with rfl | h
      · exact ⟨rfl, n, by simp [names], [], rfl⟩
      · obtain ⟨a, m, _, r, e⟩ := copyEntries_targets _ es _ _ x h
        exact ⟨a, n, by simp [names], r ++ [m], by simp [e]⟩
    · obtain ⟨a, m, b, c⟩ := contentCalls_targets tg patch content site di rest hn.2 x h
      exact ⟨a, m, by simp [names, b], c⟩

theorem contentCalls_apart (tg : Target) (patch : C → C) (content site : Path) (di : Text) : ∀ (tree : Sources C), Distinct tree →
    dataName di ∉ names tree → CallsApart (contentCalls tg patch content site di tree)
  | .nil, _, _ => by simp [contentCalls, CallsApart]
  | .cons n (.file c) rest, hd, hn => by
    rw [Distinct] at hd
    simp only [names, List.mem_cons, not_or] at hn
    rw [contentCalls]
    have ih := contentCalls_apart tg patch content site di rest hd.2 hn.2
    unfold CallsApart at ih ⊢
    rw [List.pairwise_cons]
    refine ⟨?_, ih⟩
    intro b hb p q hp hq
    obtain ⟨_, m, hm, r, hr⟩ := contentCalls_targets tg patch content site di rest hn.2 b hb
    have := names_apart (a := n) (b := m) (by rintro rfl; exact hd.1 hm) (c := Call.copy (.file c) (n :: site)) (r := []) (by rfl) hr hp hq
    exact ⟨fun _ => this.1, fun _ => this.2⟩
  | .cons n (.dir es) rest, hd, hn => by
    rw [Distinct] at hd
    simp only [names, List.mem_cons, not_or] at hn
    rw [contentCalls, if_neg (fun e => hn.1 e.symm)]
    have ih := contentCalls_apart tg patch content site di rest hd.2.2 hn.2
    have h1 := copyTree_apart (fun p => decide (p ≠ "RECORD".toList :: di :: content)) es (n :: content) (n :: site) hd.2.1
    unfold CallsApart at ih h1 ⊢
    rw [List.pairwise_append]
    refine ⟨h1, ih, ?_⟩
    intro a ha b hb p q hp hq
    obtain ⟨_, m, hm, r, hr⟩ := contentCalls_targets tg patch content site di rest hn.2 b hb
    have ha' : ∃ s, target a = some (s ++ n :: site) := by
      unfold copyTree at ha
      rcases List.mem_cons.1 ha with rfl | ha
      · exact ⟨[], rfl⟩
      · obtain ⟨_, m, _, r, e⟩ := copyEntries_targets _ es _ _ a ha
        exact ⟨r ++ [m], by simp [e]⟩
    obtain ⟨s, hs⟩ := ha'
    have := names_apart (a := n) (b := m) (by rintro rfl; exact hd.1 hm) hs hr hp hq
    exact ⟨fun _ => this.1, fun _ => this.2⟩

theorem contentCalls_mkdir (tg : Target) (patch : C → C) (content site : Path) (di n : Text) (hne : n ≠ dataName di) : ∀ (tree : Sources C)
    (r : Path) (c : C), FileIn tree (r ++ [n]) c → r ≠ [] → Call.mkdir (n :: site) ∈ contentCalls tg patch content site di tree
  | .nil, r, c, h, _ => by generalize hr : r ++ [n] = r' at h; cases h
  | .cons m (.file d) rest, r, c, h, hr => by
    rw [contentCalls]
    rcases fileIn_cons h with ⟨_, h1⟩ | ⟨es', r', h1, _⟩ | h
    · exact absurd (append_singleton_inj (a := r) (b := []) h1).1 hr
    · cases h1
    · exact List.mem_cons_of_mem _ (contentCalls_mkdir tg patch content site di n hne rest r c h hr)
  | .cons m (.dir es) rest, r, c, h, hr => by
    rw [contentCalls]
    rcases fileIn_cons h with ⟨_, h1⟩ | ⟨es', r', h1, h2, _⟩ | h
    · exact absurd (append_singleton_inj (a := r) (b := []) h1).1 hr
    · obtain ⟨_, rfl⟩ := append_singleton_inj h2
      rw [if_neg hne]
      exact List.mem_append.2 (.inl (by unfold copyTree; simp))
    · exact List.mem_append.2 (.inr (contentCalls_mkdir tg patch content site di n hne rest r c h hr))

theorem foldl_mkdir (empty : C) (p : Path) : ∀ (body : List (Call C)) (f : Path → Option (Node C)),
    (∀ x ∈ body, Simple x) → (∀ x ∈ body, ∀ q d, PutCall x q d → ¬ q <:+ p) → Call.mkdir p ∈ body →
    body.foldl (after empty) f p ≠ none
  | [], f, _, _, h => by simp at h
  | x :: xs, f, hs, hp, h => by
    rw [List.foldl_cons]
    rcases List.mem_cons.1 h with rfl | h
    · have h1 : after empty f (.mkdir p) p ≠ none := by
        simp only [after]
        split
        · simp
        · rename_i e; intro e2; exact e ⟨e2, List.suffix_refl _⟩
      rcases foldl_put_other empty p xs (after empty f (.mkdir p)) (fun y hy => hs y (by simp [hy])) (fun y hy => hp y (by simp [hy])) with e | ⟨_, e, _⟩
      · rw [e]; exact h1
      · rw [e]; simp
    · exact foldl_mkdir empty p xs _ (fun y hy => hs y (by simp [hy])) (fun y hy => hp y (by simp [hy])) h

/-! ### paths in trees -/

theorem dirIn_suffix : ∀ (t : Sources C) (u v : Path), v ≠ [] → DirIn t (u ++ v) → DirIn t v
  | .nil, u, v, hv, h => by generalize hr : u ++ v = r' at h; cases h
  | .cons n s rest, u, v, hv, h => by
    obtain ⟨w, m, rfl⟩ : ∃ w m, v = w ++ [m] := ⟨v.dropLast, v.getLast hv, (List.dropLast_concat_getLast hv).symm⟩
    rw [← List.append_assoc] at h
    rcases dirIn_cons h with ⟨es, rfl, h1⟩ | ⟨es, r', rfl, h1, h2⟩ | h
    · obtain ⟨h2, rfl⟩ := append_singleton_inj (a := u ++ w) (b := []) h1
      rw [(List.append_eq_nil_iff.1 h2).2]; exact .here
    · obtain ⟨rfl, rfl⟩ := append_singleton_inj h1
      by_cases hw : w = []
      · subst hw; exact .here
      · exact .dir (dirIn_suffix es u w hw h2)
    · rw [List.append_assoc] at h
      exact .later (dirIn_suffix rest u _ hv h)

theorem fileIn_dirIn : ∀ (t : Sources C) (u v : Path) (c : C), u ≠ [] → v ≠ [] → FileIn t (u ++ v) c → DirIn t v
  | .nil, u, v, c, _, hv, h => by generalize hr : u ++ v = r' at h; cases h
  | .cons n s rest, u, v, c, hu, hv, h => by
    obtain ⟨w, m, rfl⟩ : ∃ w m, v = w ++ [m] := ⟨v.dropLast, v.getLast hv, (List.dropLast_concat_getLast hv).symm⟩
    rw [← List.append_assoc] at h
    rcases fileIn_cons h with ⟨_, h1⟩ | ⟨es, r', rfl, h1, h2⟩ | h
    · obtain ⟨h2, rfl⟩ := append_singleton_inj (a := u ++ w) (b := []) h1
      exact absurd (List.append_eq_nil_iff.1 h2).1 hu
    · obtain ⟨rfl, rfl⟩ := append_singleton_inj h1
      by_cases hw : w = []
      · subst hw; exact .here
      · exact .dir (fileIn_dirIn es u w c hu hw h2)
    · rw [List.append_assoc] at h
      exact .later (fileIn_dirIn rest u _ c hu hv h)

theorem dirIn_top : ∀ (t : Sources C) (n : Text), Distinct t → DirIn t [n] → ∃ es, lookup n t = some (.dir es)
  | .nil, n, _, h => by cases h
  | .cons m s rest, n, hd, h => by
    rcases dirIn_cons h with ⟨es, rfl, h1⟩ | ⟨es, r', rfl, h1, h2⟩ | h
    · simp only [List.cons.injEq, and_true] at h1
      subst h1
      exact ⟨es, by simp [lookup]⟩
    · obtain ⟨rfl, rfl⟩ := append_singleton_inj (a := []) h1
      exact absurd rfl (DirIn.ne_nil h2)
    · have hnm : n ∈ names rest := dirIn_names rest [] n h
      have hne : m ≠ n := by
        rintro rfl
        cases s with
        | file _ => rw [Distinct] at hd; exact hd.1 hnm
        | dir _ => rw [Distinct] at hd; exact hd.1 hnm
      have hd' : Distinct rest := by
        cases s with
        | file _ => rw [Distinct] at hd; exact hd.2
        | dir _ => rw [Distinct] at hd; exact hd.2.2
      obtain ⟨es, he⟩ := dirIn_top rest n hd' h
      exact ⟨es, by unfold lookup; rw [if_neg hne]; exact he⟩

theorem names_top : ∀ (t : Sources C) (n : Text), n ∈ names t → DirIn t [n] ∨ ∃ c, FileIn t [n] c
  | .nil, n, h => by simp [names] at h
  | .cons m s rest, n, h => by
    simp only [names, List.mem_cons] at h
    rcases h with rfl | h
    · cases s with
      | file c => exact .inr ⟨c, .file⟩
      | dir es => exact .inl .here
    · rcases names_top rest n h with h | ⟨c, h⟩
      · exact .inl (.later h)
      · exact .inr ⟨c, .later h⟩

theorem not_file_dir {t : Sources C} (hd : Distinct t) {n : Text} (h : DirIn t [n]) (c : C) : ¬ FileIn t [n] c := by
  obtain ⟨es, he⟩ := dirIn_top t n hd h
  intro hf
  have := ((lookup_distinct t n _ hd he).2 es rfl).2.1 [] c
  exact FileIn.ne_nil (this.1 hf) rfl

/-! ### writes that succeed -/

theorem run_writes (empty : C) (d : Path) : ∀ (ws : List (Text × C)) (t : Txn C), Dict.get t.fs d = some .dir →
    (∀ w ∈ ws, Dict.get t.fs (w.1 :: d) ≠ some .dir) →
    ∃ t', Txn.run empty (ws.map (fun w => Call.write (w.1 :: d) w.2)) t = .ok t'
  | [], t, _, _ => ⟨t, rfl⟩
  | w :: ws, t, hd, hw => by
    rw [List.map_cons]
    unfold Txn.run
    have h1 : ¬ t.fs.isDir (w.1 :: d) = true := fun e => hw w (by simp) ((isDir_iff _ _).1 e)
    have hstep : t.step empty (.write (w.1 :: d) w.2) = .ok { t with fs := Dict.put t.fs (w.1 :: d) (.file w.2) } := by
      simp only [Txn.step, Txn.write]
      rw [if_neg h1, if_pos ⟨(isDir_iff _ _).2 hd, by simp⟩]
    rw [hstep]
    refine run_writes empty d ws _ ?_ ?_
    · simp only
      rw [Dict.get_put, if_neg ?_]
      · exact hd
      · intro e
        have := congrArg List.length e
        simp at this
    · intro w' hw'
      simp only
      rw [Dict.get_put]
      split
      · simp
      · exact hw w' (by simp [hw'])

theorem launchers_none (scripts : Path) : ∀ (es : List (Entry C)) (t : Txn C), (∀ e ∈ es, e.isScript = false) → launchers scripts es t = .ok t
  | [], t, _ => rfl
  | e :: es, t, h => by
    unfold launchers
    rw [if_neg (by rw [h e (by simp)]; simp)]
    exact launchers_none scripts es t (fun x hx => h x (by simp [hx]))

/-- The four files of information can be written. -/
theorem finish_succeeds {fm : Formats C S} {tl : Tools C S} {site : Path} {ch : Checked C S} {request : Option C} {info : C} {t : Txn C}
    (hdi : Dict.get t.fs (ch.distInfo :: site) = some .dir) (hrec : Dict.get t.fs ("RECORD".toList :: ch.distInfo :: site) = none)
    (hn : ∀ n ∈ [t!"INSTALLER", t!"REQUESTED", t!"INSTALLATION_MODE"], Dict.get t.fs (n :: ch.distInfo :: site) ≠ some .dir) :
    ∃ t', finish fm tl site ch request info t = .ok t' := by
  unfold finish
  have ho : oldRecords fm t.fs (ch.distInfo :: site) = some [] := by
    unfold oldRecords
    rw [hdi, hrec]
  simp only [ho]
  cases request with
  | none =>
    exact run_writes tl.empty (ch.distInfo :: site) [("RECORD".toList, _), (t!"INSTALLER", _), (t!"INSTALLATION_MODE", _)] t hdi (by
      intro w hw
      simp only [List.mem_cons, List.not_mem_nil, or_false] at hw
      rcases hw with rfl | rfl | rfl
      · simp only [hrec]; simp
      · exact hn _ (by simp)
      · exact hn _ (by simp))
  | some r =>
    exact run_writes tl.empty (ch.distInfo :: site) [("RECORD".toList, _), (t!"INSTALLER", _), (t!"REQUESTED", _), (t!"INSTALLATION_MODE", _)] t hdi (by
      intro w hw
      simp only [List.mem_cons, List.not_mem_nil, or_false] at hw
      rcases hw with rfl | rfl | rfl | rfl
      · simp only [hrec]; simp
      · exact hn _ (by simp)
      · exact hn _ (by simp)
      · exact hn _ (by simp))

end WheelInstall

/-! ## C96 -/

/-- C96: a wheel is only installed if each of its kinds of data is known, and no file lies directly in the data directory. -/
theorem wheel_kinds (fm : Formats C S) (tl : Tools C S) (tg : Target) (content : Path) (tree : Sources C) (request : Option C) (info : C)
    (fs fs' : FS C) (stem : Text) (purelib : Bool) (entries : List (Entry C)) (records : List (Rec S)) (hg : Good fs) (hd : Distinct tree)
    (hs : WheelSays fm tree stem purelib entries records) (h : install fm tl tg content tree request info fs = (fs', none))
    (r : Path) (k : Text) (c : C) (hf : FileIn tree (r ++ [k, stem ++ t!".data"]) c) : r ≠ [] ∧ ∃ place, KindPlace tg k place := by
  obtain ⟨t1, t2, st⟩ := stages hg hd hs h
  exact contentCalls_kinds tg tl.patch content _ stem (prune tree) (run_no_fail tl.empty _ _ _ st.run) r k c ((prune_fileIn _ _ _).2 hf)

/-- C96, violated: `headers` is a kind of data of the format of wheels, but a wheel with headers is never installed. -/
theorem wheel_headers_violated (fm : Formats C S) (tl : Tools C S) (tg : Target) (content : Path) (tree : Sources C) (request : Option C) (info : C)
    (fs : FS C) (stem : Text) (purelib : Bool) (entries : List (Entry C)) (records : List (Rec S)) (hg : Good fs) (hd : Distinct tree)
    (hs : WheelSays fm tree stem purelib entries records) (r : Path) (c : C)
    (hf : FileIn tree (r ++ [t!"headers", stem ++ t!".data"]) c) : (install fm tl tg content tree request info fs).2 ≠ none := by
  intro h
  have h' : install fm tl tg content tree request info fs = ((install fm tl tg content tree request info fs).1, none) := by rw [← h]
  obtain ⟨_, q, hq⟩ := wheel_kinds fm tl tg content tree request info fs _ stem purelib entries records hg hd hs h' r _ c hf
  unfold KindPlace at hq
  simp at hq

/-- C96, violated: a wheel whose WHEEL says `Wheel-Version: 1` is of the supported major version, but is never installed. -/
theorem wheel_version_violated (fm : Formats C S) (tl : Tools C S) (tg : Target) (content : Path) (tree : Sources C) (request : Option C) (info : C)
    (fs : FS C) (stem : Text) (c : C) (purelib : Bool) (hd : Distinct tree) (hdi : DirIn tree [stem ++ t!".dist-info"])
    (hf : FileIn tree [t!"WHEEL", stem ++ t!".dist-info"] c) (hw : fm.wheel c = some ⟨some [1], purelib⟩) :
    (install fm tl tg content tree request info fs).2 ≠ none := by
  intro h
  have h' : install fm tl tg content tree request info fs = ((install fm tl tg content tree request info fs).1, none) := by rw [← h]
  obtain ⟨stem', pl, es, rs, hs, _⟩ := wheel_accepted fm tl tg content tree request info fs _ hd h'
  have e := hs.only stem (.inl hdi)
  subst e
  obtain ⟨m, rest, w⟩ := hs.wheel
  have := says_det hd w (.inl ⟨c, hf, hw⟩)
  simp at this

/-- C96, violated: RECORD does not list the files of information that pkm adds to the dist-info directory. -/
theorem wheel_information_unrecorded_violated (fm : Formats C S) (tl : Tools C S) (tg : Target) (content : Path) (tree : Sources C) (request : Option C)
    (info : C) (fs fs' : FS C) (stem : Text) (purelib : Bool) (entries : List (Entry C)) (records : List (Rec S)) (hg : Good fs) (hd : Distinct tree)
    (hord : ∀ l p, p ∈ tl.order l ↔ p ∈ l) (hs : WheelSays fm tree stem purelib entries records)
    (h : install fm tl tg content tree request info fs = (fs', none))
    (hnew : Dict.get fs (t!"RECORD" :: (stem ++ t!".dist-info") :: siteOf tg purelib) = none)
    (hnames : ∀ p, Brings tg tl.patch (siteOf tg purelib) stem tree entries p ∨ Makes tg (siteOf tg purelib) stem tree p → ∀ c ∈ p, ValidName c)
    (htag : '/' ∉ tl.tag) (hput : ∀ p, InfoFile (siteOf tg purelib) stem p → ¬ Brings tg tl.patch (siteOf tg purelib) stem tree entries p) :
    ∃ lines, Dict.get fs' (t!"RECORD" :: (stem ++ t!".dist-info") :: siteOf tg purelib) = some (.file (fm.writeRecord lines)) ∧
      ∀ p, InfoFile (siteOf tg purelib) stem p → ∀ r ∈ lines, resolveFrom (siteOf tg purelib) r.file ≠ p := by
  obtain ⟨lines, h1, h2, _⟩ := wheel_record fm tl tg content tree request info fs fs' stem purelib entries records hg hd hord hs h hnew
    (hput _ ⟨t!"RECORD", by simp, rfl⟩) hnames htag
  refine ⟨lines, h1, ?_⟩
  intro p hp r hr e
  rcases (h2 r hr).1 with hb | ⟨q, a, hpyc, _⟩
  · rw [e] at hb; exact hput p hp hb
  · rw [e] at hpyc
    obtain ⟨n, hn, rfl⟩ := hp
    obtain ⟨m, dir, _, _, e⟩ := hpyc
    simp only [List.cons.injEq] at e
    have hl := getLast_pyc (m ++ t!".py") tl.tag
    rw [take_py, ← e.1] at hl
    simp only [List.mem_cons, List.not_mem_nil, or_false] at hn
    rcases hn with rfl | rfl | rfl | rfl <;> exact absurd hl (by decide)

/-- C96: full statement: an installation that fails leaves everything as it was. Proved up to new directories, for wheels
without data and without scripts, of a package that is not yet installed, if no directory is where a file of the wheel
belongs. -/
theorem wheel_rollback_partial (fm : Formats C S) (tl : Tools C S) (tg : Target) (content : Path) (tree : Sources C) (request : Option C)
    (info : C) (fs fs' : FS C) (stem : Text) (purelib : Bool) (entries : List (Entry C)) (records : List (Rec S)) (e : WErr) (hg : Good fs)
    (hd : Distinct tree) (hord : ∀ l p, p ∈ tl.order l ↔ p ∈ l) (hs : WheelSays fm tree stem purelib entries records)
    (hdata : ¬ DirIn tree [stem ++ t!".data"] ∧ ∀ c, ¬ FileIn tree [stem ++ t!".data"] c) (hscripts : ∀ x ∈ entries, x.isScript = false)
    (hnew : Dict.get fs ((stem ++ t!".dist-info") :: siteOf tg purelib) = none)
    (hinfo : ∀ n ∈ [t!"RECORD", t!"INSTALLER", t!"REQUESTED", t!"INSTALLATION_MODE"], ¬ DirIn tree [n, stem ++ t!".dist-info"])
    (hdir : ∀ p c, Puts tg tl.patch (siteOf tg purelib) stem tree p c → Dict.get fs p ≠ some .dir)
    (h : install fm tl tg content tree request info fs = (fs', some e)) (p : Path) :
    Dict.get fs' p = Dict.get fs p ∨ (Dict.get fs p = none ∧ Dict.get fs' p = some .dir) := by
  unfold install at h
  cases h1 : check fm tl content tree with
  | error e' =>
    rw [h1] at h
    simp only [Prod.mk.injEq] at h
    rw [← h.1]; exact .inl rfl
  | ok ch =>
    rw [h1] at h
    simp only at h
    obtain ⟨stem', e1, e2, e3, _⟩ := check_ok hd h1
    obtain ⟨rfl, rfl, rfl, rfl⟩ := wheelSays_det hd hs e3
    have hnm : dataName (stem ++ distInfoExt) ∉ names (prune tree) := by
      rw [dataName_stem]
      intro hx
      rcases names_top tree _ (prune_names _ _ hx) with h | ⟨c, h⟩
      · exact hdata.1 h
      · exact hdata.2 c h
    have hdp := prune_distinct tree hd
    have htgt := contentCalls_targets tg tl.patch content (siteOf tg ch.purelib) (stem ++ distInfoExt) (prune tree) hnm
    have hnf : Call.fail ∉ contentCalls tg tl.patch content (siteOf tg ch.purelib) (stem ++ distInfoExt) (prune tree) := by
      intro hx
      obtain ⟨_, m, _, r, hr⟩ := htgt _ hx
      simp [target] at hr
    have hcalls := contentCalls_mem tg tl.patch content (siteOf tg ch.purelib) stem (prune tree) hnf
    have hputs : ∀ q d, Puts tg tl.patch (siteOf tg ch.purelib) stem tree q d →
        ∃ r, FileIn tree r d ∧ q = r ++ siteOf tg ch.purelib ∧ ¬ ["RECORD".toList, stem ++ distInfoExt] <:+ r := by
      intro q d hq
      cases hq with
      | @plain r _ a b c => exact ⟨r, a, rfl, c⟩
      | @data r kind place _ a b c d =>
        exact absurd (fileIn_dirIn tree (r ++ [kind]) [stem ++ t!".data"] _ (by simp) (by simp) (by simpa using a)) hdata.1
      | @script n _ a =>
        exact absurd (fileIn_dirIn tree [n, t!"scripts"] [stem ++ t!".data"] _ (by simp) (by simp) (by simpa using a)) hdata.1
    cases h2 : body fm tl tg content ch request info fs with
    | ok t => rw [h2] at h; simp at h
    | raised t =>
      rw [h2] at h
      simp only [Prod.mk.injEq] at h
      unfold body at h2
      simp only at h2
      rw [e1, e2] at h2
      change (match Txn.run tl.empty (contentCalls tg tl.patch content (siteOf tg ch.purelib) (stem ++ distInfoExt) (prune tree)) ⟨fs, [], []⟩ with
        | .raised t => Out.raised t
        | .ok t => match launchers tg.scripts ch.entries t with
          | .raised t => Out.raised t
          | .ok t => finish fm tl (siteOf tg ch.purelib) ch request info (compileAll tl t)) = _ at h2
      cases hrun : Txn.run tl.empty (contentCalls tg tl.patch content (siteOf tg ch.purelib) (stem ++ distInfoExt) (prune tree)) ⟨fs, [], []⟩ with
      | raised t' =>
        rw [hrun] at h2
        simp only [Out.raised.injEq] at h2
        subst h2
        have htr : transaction tl.empty tl.order (contentCalls tg tl.patch content (siteOf tg ch.purelib) (stem ++ distInfoExt) (prune tree)) fs
            = (fs', false, (t'.rollback tl.order).2) := by
          unfold transaction
          rw [hrun]
          simp only [← h.1]
        obtain ⟨_, hr⟩ := rollback_restores_partial tl.empty tl.order hord _ fs fs' _ hg (fun c hc => (htgt c hc).1)
          (contentCalls_apart tg tl.patch content (siteOf tg ch.purelib) (stem ++ distInfoExt) (prune tree) hdp hnm) (by
            intro x hx hon q hq
            cases hcalls x hx with
            | put a b =>
              rcases a with rfl | rfl
              · simp only [target, Option.some.injEq] at hq; subst hq; exact hdir _ _ (puts_prune.1 b)
              · simp [onFile] at hon
            | touch a => simp [onFile] at hon
            | mkdir a => simp [onFile] at hon) htr
        rcases hr p with h | ⟨h1, h2, _⟩
        · exact .inl h
        · exact .inr ⟨h1, h2⟩
      | ok t1 =>
        exfalso
        rw [hrun] at h2
        simp only [launchers_none tg.scripts ch.entries t1 hscripts] at h2
        obtain ⟨f1, f2⟩ := run_ok tl.empty _ _ t1 (by exact hg) hrun
        have hsimple : ∀ x ∈ contentCalls tg tl.patch content (siteOf tg ch.purelib) (stem ++ distInfoExt) (prune tree), Simple x :=
          fun x hx => ContentCall.simple (hcalls x hx)
        have hputc : ∀ x ∈ contentCalls tg tl.patch content (siteOf tg ch.purelib) (stem ++ distInfoExt) (prune tree), ∀ q d, PutCall x q d →
            Puts tg tl.patch (siteOf tg ch.purelib) stem tree q d := fun x hx q d hq => puts_prune.1 (putCall_copied (hcalls x hx) hq)
        rw [← distInfoExt_eq] at hnew hinfo
        have hinf := hs.info
        rw [← distInfoExt_eq] at hinf
        -- no file of the wheel is where the dist-info directory is, or above
        have habove : ∀ q d, Puts tg tl.patch (siteOf tg ch.purelib) stem tree q d → ¬ q <:+ (stem ++ distInfoExt) :: siteOf tg ch.purelib := by
          intro q d hq hsuf
          obtain ⟨r, a, rfl, _⟩ := hputs q d hq
          have hlen := hsuf.length_le
          simp only [List.length_append, List.length_cons] at hlen
          have hr1 := List.length_pos_iff.2 (FileIn.ne_nil a)
          have hr : r = [stem ++ distInfoExt] := by
            have := List.IsSuffix.eq_of_length hsuf (by simp; omega)
            exact List.append_cancel_right (bs := siteOf tg ch.purelib) (by simpa using this)
          subst hr
          exact not_file_dir hd hinf d a
        have hdi1 : Dict.get t1.fs ((stem ++ distInfoExt) :: siteOf tg ch.purelib) = some .dir := by
          rw [f1]
          rcases foldl_put_other tl.empty ((stem ++ distInfoExt) :: siteOf tg ch.purelib) _ (Dict.get fs) hsimple
            (fun x hx q d hq => habove q d (hputc x hx q d hq)) with h | ⟨_, h, _⟩
          · exfalso
            obtain ⟨c, hc, _⟩ := hs.record
            rw [← distInfoExt_eq] at hc
            have hmk := contentCalls_mkdir tg tl.patch content (siteOf tg ch.purelib) (stem ++ distInfoExt) (stem ++ distInfoExt) (by
              rw [dataName_stem]
              intro e
              have := List.append_cancel_left e
              exact absurd this (by decide)) (prune tree) [t!"RECORD"] c ((prune_fileIn _ _ _).2 hc) (by simp)
            have := foldl_mkdir tl.empty _ _ (Dict.get fs) hsimple (fun x hx q d hq => habove q d (hputc x hx q d hq)) hmk
            rw [h, hnew] at this
            exact this rfl
          · exact h
        -- the files of information
        have hno : ∀ n, Dict.get fs (n :: (stem ++ distInfoExt) :: siteOf tg ch.purelib) = none := by
          intro n
          cases hx : Dict.get fs (n :: (stem ++ distInfoExt) :: siteOf tg ch.purelib) with
          | none => rfl
          | some nd =>
            have := hg.tree _ _ _ hx
            rw [hnew] at this; cases this
        have hin1 : ∀ n ∈ [t!"RECORD", t!"INSTALLER", t!"REQUESTED", t!"INSTALLATION_MODE"],
            (∃ d, Puts tg tl.patch (siteOf tg ch.purelib) stem tree (n :: (stem ++ distInfoExt) :: siteOf tg ch.purelib) d ∧
              Dict.get t1.fs (n :: (stem ++ distInfoExt) :: siteOf tg ch.purelib) = some (.file d)) ∨
            Dict.get t1.fs (n :: (stem ++ distInfoExt) :: siteOf tg ch.purelib) = none := by
          intro n hn
          have hsuf : ∀ q d, Puts tg tl.patch (siteOf tg ch.purelib) stem tree q d → q <:+ n :: (stem ++ distInfoExt) :: siteOf tg ch.purelib →
              q = n :: (stem ++ distInfoExt) :: siteOf tg ch.purelib := by
            intro q d hq hx
            rcases List.suffix_cons_iff.1 hx with h | h
            · exact h
            · exact absurd h (habove q d hq)
          rw [f1]
          by_cases hp : ∃ d, Puts tg tl.patch (siteOf tg ch.purelib) stem tree (n :: (stem ++ distInfoExt) :: siteOf tg ch.purelib) d
          · obtain ⟨d, hd1⟩ := hp
            refine .inl ⟨d, hd1, ?_⟩
            refine foldl_put_file tl.empty _ d _ _ hsimple ?_ (.inr (contentCalls_has tg tl.patch content _ stem (prune tree) hnf _ d (puts_prune.2 hd1)).1)
            intro x hx q d' hq hs'
            have hq' := hputc x hx q d' hq
            have hqe := hsuf q d' hq' hs'
            subst hqe
            refine ⟨rfl, ?_⟩
            obtain ⟨r, a, ea, _⟩ := hputs _ _ hq'
            obtain ⟨r', a', ea', _⟩ := hputs _ _ hd1
            rw [ea] at ea'
            have := List.append_cancel_right ea'
            subst this
            exact fileIn_det tree hd r d' d a a'
          · right
            rcases foldl_put_other tl.empty (n :: (stem ++ distInfoExt) :: siteOf tg ch.purelib) _ (Dict.get fs) hsimple
              (fun x hx q d hq hs' => by
                have hq' := hputc x hx q d hq
                have := hsuf q d hq' hs'
                subst this
                exact hp ⟨d, hq'⟩) with h | ⟨_, _, x, hx, q, hq, hs'⟩
            · rw [h, hno]
            · exfalso
              have hlow : ∀ r, q = r ++ siteOf tg ch.purelib → ∃ u, r = u ++ [n, stem ++ distInfoExt] := by
                rintro r rfl
                obtain ⟨u, hu⟩ := hs'
                exact ⟨u, List.append_cancel_right (bs := siteOf tg ch.purelib) (by rw [← hu]; simp)⟩
              have hputq : ∀ d, ¬ Puts tg tl.patch (siteOf tg ch.purelib) stem tree q d := by
                intro d hq'
                obtain ⟨r, a, ea, _⟩ := hputs q d hq'
                obtain ⟨u, hu⟩ := hlow r ea
                by_cases hu0 : u = []
                · subst hu0
                  apply hp
                  refine ⟨d, ?_⟩
                  rw [ea, hu] at hq'
                  exact hq'
                · rw [hu] at a
                  exact hinfo n hn (fileIn_dirIn tree u _ d hu0 (by simp) a)
              cases hcalls x hx with
              | put a b =>
                rcases a with rfl | rfl
                · simp only [target, Option.some.injEq] at hq; subst hq; exact hputq _ (puts_prune.1 b)
                · simp only [target, Option.some.injEq] at hq; subst hq; exact hputq _ (puts_prune.1 b)
              | touch a => simp only [target, Option.some.injEq] at hq; subst hq; exact hputq _ (puts_prune.1 a)
              | mkdir a =>
                simp only [target, Option.some.injEq] at hq
                subst hq
                cases makes_prune a with
                | @plain r a1 b =>
                  obtain ⟨u, hu⟩ := hlow r rfl
                  rw [hu] at a1
                  exact hinfo n hn (dirIn_suffix tree u _ (by simp) a1)
                | @data r kind place a1 b =>
                  exact hdata.1 (dirIn_suffix tree (r ++ [kind]) _ (by simp) (by simpa using a1))
        have hcomp : ∀ n ∈ [t!"RECORD", t!"INSTALLER", t!"REQUESTED", t!"INSTALLATION_MODE"],
            Dict.get (compileAll tl t1).fs (n :: (stem ++ distInfoExt) :: siteOf tg ch.purelib) =
              Dict.get t1.fs (n :: (stem ++ distInfoExt) :: siteOf tg ch.purelib) := by
          intro n hn
          rcases compileAll_changes hord f2 (n :: (stem ++ distInfoExt) :: siteOf tg ch.purelib) with h | ⟨q, _, ⟨m, dir, _, _, e⟩, _⟩ | ⟨_, _, q, _, _, e, _⟩
          · exact h
          · exfalso
            simp only [List.cons.injEq] at e
            have hl := getLast_pyc (m ++ t!".py") tl.tag
            rw [take_py, ← e.1] at hl
            simp only [List.mem_cons, List.not_mem_nil, or_false] at hn
            rcases hn with rfl | rfl | rfl | rfl <;> exact absurd hl (by decide)
          · exfalso
            simp only [List.cons.injEq, pycache_eq] at e
            rw [e.1] at hn
            exact absurd hn (by decide)
        have hdi2 : Dict.get (compileAll tl t1).fs ((stem ++ distInfoExt) :: siteOf tg ch.purelib) = some .dir := by
          rcases compileAll_changes hord f2 ((stem ++ distInfoExt) :: siteOf tg ch.purelib) with h | ⟨q, _, _, h, _⟩ | ⟨h, _⟩
          · rw [h, hdi1]
          · exact absurd hdi1 h
          · rw [hdi1] at h; cases h
        obtain ⟨t', ht'⟩ := finish_succeeds (fm := fm) (tl := tl) (site := siteOf tg ch.purelib) (ch := ch) (request := request) (info := info)
          (t := compileAll tl t1) (by rw [e1]; exact hdi2) (by
            rw [e1, record_eq, hcomp _ (by simp)]
            rcases hin1 t!"RECORD" (by simp) with ⟨d, hp, _⟩ | h
            · obtain ⟨r, a, ea, hr⟩ := hputs _ _ hp
              exfalso
              apply hr
              have : r = [t!"RECORD", stem ++ distInfoExt] := List.append_cancel_right (bs := siteOf tg ch.purelib) (by rw [← ea]; rfl)
              rw [this, record_eq]
              exact List.suffix_refl _
            · exact h) (by
            intro n hn
            have hn' : n ∈ [t!"RECORD", t!"INSTALLER", t!"REQUESTED", t!"INSTALLATION_MODE"] := List.mem_cons_of_mem _ hn
            rw [e1, hcomp n hn']
            rcases hin1 n hn' with ⟨d, _, h⟩ | h
            · rw [h]; simp
            · rw [h]; simp)
        rw [ht'] at h2
        cases h2

end Pkm
