import Verif.Files.WheelInstallProps
set_option linter.unusedVariables false
set_option linter.unusedSimpArgs false
set_option linter.unusedSectionVars false
/-
C96: RECORD after an installation, and the removal of what was installed.
-/
namespace Pkm
open Tags Files Files.FS WheelInstall Spec

variable {C S : Type}

namespace WheelInstall

/-- Only files are signed. -/
theorem signFiles_filter (pre : Dict Text S) (hash : C → S) (fs : FS C) (root : Path) : ∀ files : List Path,
    signFiles pre hash fs root files = signFiles pre hash fs root (files.filter (fun f => match Dict.get fs f with
      | some (.file _) => true
      | _ => false))
  | [] => rfl
  | f :: files => by
    rw [List.filter_cons]
    cases h : Dict.get fs f with
    | none => simp only [signFiles, h]; exact signFiles_filter pre hash fs root files
    | some nd =>
      cases nd with
      | dir => simp only [signFiles, h]; exact signFiles_filter pre hash fs root files
      | file c =>
        simp only [if_true, signFiles, h]
        rw [signFiles_filter pre hash fs root files]

theorem precomputed_get (path : Text) : ∀ (records : List (Rec S)) (d : Dict Text S) (s : S),
    Dict.get (records.foldl (fun d r => match r.sig with
      | some s => Dict.put d r.file s
      | none => d) d) path = some s →
    (∃ before after, records = before ++ ⟨path, some s⟩ :: after ∧ ∀ r ∈ after, r.file = path → r.sig = none) ∨
      (Dict.get d path = some s ∧ ∀ r ∈ records, r.file = path → r.sig = none)
  | [], d, s, h => .inr ⟨h, by simp⟩
  | r :: rs, d, s, h => by
    rw [List.foldl_cons] at h
    rcases precomputed_get path rs _ s h with ⟨b, a, h1, h2⟩ | ⟨h1, h2⟩
    · exact .inl ⟨r :: b, a, by rw [h1]; rfl, h2⟩
    · cases hr : r.sig with
      | none =>
        rw [hr] at h1
        refine .inr ⟨h1, ?_⟩
        intro x hx hp
        rcases List.mem_cons.1 hx with rfl | hx
        · exact hr
        · exact h2 x hx hp
      | some s' =>
        rw [hr] at h1
        simp only at h1
        rw [Dict.get_put] at h1
        by_cases e : r.file = path
        · rw [if_pos e] at h1
          simp only [Option.some.injEq] at h1
          subst h1
          refine .inl ⟨[], rs, ?_, h2⟩
          cases r
          simp only at hr e
          simp [hr, e]
        · rw [if_neg e] at h1
          refine .inr ⟨h1, ?_⟩
          intro x hx hp
          rcases List.mem_cons.1 hx with rfl | hx
          · exact absurd hp e
          · exact h2 x hx hp

theorem precomputed_none (path : Text) : ∀ (records : List (Rec S)) (d : Dict Text S),
    Dict.get (records.foldl (fun d r => match r.sig with
      | some s => Dict.put d r.file s
      | none => d) d) path = none → Dict.get d path = none ∧ ∀ r ∈ records, r.file = path → r.sig = none
  | [], d, h => ⟨h, by simp⟩
  | r :: rs, d, h => by
    rw [List.foldl_cons] at h
    obtain ⟨h1, h2⟩ := precomputed_none path rs _ h
    cases hr : r.sig with
    | none =>
      rw [hr] at h1
      refine ⟨h1, ?_⟩
      intro x hx hp
      rcases List.mem_cons.1 hx with rfl | hx
      · exact hr
      · exact h2 x hx hp
    | some s' =>
      rw [hr] at h1
      simp only at h1
      rw [Dict.get_put] at h1
      by_cases e : r.file = path
      · rw [if_pos e] at h1; cases h1
      · rw [if_neg e] at h1
        refine ⟨h1, ?_⟩
        intro x hx hp
        rcases List.mem_cons.1 hx with rfl | hx
        · exact absurd hp e
        · exact h2 x hx hp

/-- A new file of the first stage is one of the wheel. -/
theorem foldl_put_new (empty : C) (p : Path) (c : C) : ∀ (body : List (Call C)) (f : Path → Option (Node C)),
    (∀ x ∈ body, Simple x) → body.foldl (after empty) f p = some (.file c) →
    f p = some (.file c) ∨ ∃ x ∈ body, PutCall x p c
  | [], f, _, h => .inl h
  | x :: xs, f, hs, h => by
    rw [List.foldl_cons] at h
    rcases foldl_put_new empty p c xs _ (fun y hy => hs y (by simp [hy])) h with h | ⟨y, hy, h⟩
    · rcases hs x (by simp) with ⟨q, d, e | e⟩ | ⟨q, e⟩ | ⟨q, e⟩
      · subst e
        simp only [after] at h
        split at h
        · rename_i e
          simp only [Option.some.injEq, Node.file.injEq] at h
          subst h; subst e
          exact .inr ⟨_, by simp, .inl rfl⟩
        · split at h
          · cases h
          · split at h
            · cases h
            · exact .inl h
      · subst e
        simp only [after] at h
        split at h
        · rename_i e
          simp only [Option.some.injEq, Node.file.injEq] at h
          subst h; subst e
          exact .inr ⟨_, by simp, .inr rfl⟩
        · exact .inl h
      · subst e
        simp [after] at h
        exact .inl h
      · subst e
        simp only [after] at h
        split at h
        · cases h
        · exact .inl h
    · exact .inr ⟨y, by simp [hy], h⟩

/-- A file after compilation was there before, or is brought, or is compiled from something brought. -/
theorem Stages.new3 {fm : Formats C S} {tl : Tools C S} {tg : Target} {content : Path} {tree : Sources C} {request : Option C} {info : C}
    {fs fs' : FS C} {stem : Text} {site : Path} {entries : List (Entry C)} {records : List (Rec S)} {t1 t2 : Txn C}
    (st : Stages fm tl tg content tree request info fs fs' stem site entries records t1 t2) (hord : ∀ l p, p ∈ tl.order l ↔ p ∈ l) {p : Path} {c : C}
    (hp : Dict.get (compileAll tl t2).fs p = some (.file c)) : Dict.get fs p = some (.file c) ∨
      Brings tg tl.patch site stem tree entries p ∨ ∃ q, Brings tg tl.patch site stem tree entries q ∧ Pyc tl.tag q p := by
  obtain ⟨l1, l2, l3, l4, l5, l6⟩ := launchers_ok tg.scripts entries t1 t2 st.good1 st.launched
  rcases compileAll_changes hord st.good2 p with e | ⟨q, hq, e1, _, c', b, e2, _⟩ | ⟨_, e, _⟩
  · rw [e] at hp
    by_cases hl : LauncherAt tg.scripts entries p
    · exact .inr (.inl (.inr hl))
    · rcases l3 p hl with e | ⟨_, _, e, _⟩
      · rw [e, st.fs1] at hp
        rcases foldl_put_new tl.empty p c _ _ (fun x hx => ContentCall.simple (st.calls x hx)) hp with h | ⟨x, hx, h⟩
        · exact .inl h
        · exact .inr (.inl (.inl ⟨c, putCall_copied (st.calls x hx) h⟩))
      · rw [hp] at e; cases e
  · exact .inr (.inr ⟨q, st.copied2 hq e2, e1⟩)
  · rw [hp] at e; cases e

theorem Stages.copied3 {fm : Formats C S} {tl : Tools C S} {tg : Target} {content : Path} {tree : Sources C} {request : Option C} {info : C}
    {fs fs' : FS C} {stem : Text} {site : Path} {entries : List (Entry C)} {records : List (Rec S)} {t1 t2 : Txn C}
    (st : Stages fm tl tg content tree request info fs fs' stem site entries records t1 t2) (hord : ∀ l p, p ∈ tl.order l ↔ p ∈ l) {p : Path}
    (hp : Brings tg tl.patch site stem tree entries p ∨ ∃ q, Brings tg tl.patch site stem tree entries q ∧ Pyc tl.tag q p) :
    p ∈ (compileAll tl t2).copied := by
  rw [compileAll_copied]
  rcases hp with h | ⟨q, h, h1⟩
  · exact .inl (st.brings_copied h)
  · obtain ⟨a, b⟩ := (pyc_iff _ _ _).1 h1
    exact .inr ⟨q, (hord _ _).2 (st.brings_copied h), a, b⟩

/-- Copied paths lie on the way to what the steps work on. -/
theorem run_copied_seen (empty : C) : ∀ (body : List (Call C)) (t t' : Txn C), Good t.fs → (∀ x ∈ body, Simple x) →
    Txn.run empty body t = .ok t' → ∀ p ∈ t'.copied, p ∈ t.copied ∨ ∃ x ∈ body, ∃ q, target x = some q ∧ p <:+ q
  | [], t, t', hg, _, h => by
    simp only [Txn.run, Out.ok.injEq] at h
    subst h
    exact fun _ h => .inl h
  | x :: xs, t, t', hg, hs, h => by
    unfold Txn.run at h
    cases hx : t.step empty x with
    | raised t1 => rw [hx] at h; cases h
    | ok t1 =>
      rw [hx] at h
      obtain ⟨hfs, hg1⟩ := step_ok empty t t1 hg x hx
      have ih := run_copied_seen empty xs t1 t' hg1 (fun y hy => hs y (by simp [hy])) h
      have key : ∀ p ∈ t1.copied, p ∈ t.copied ∨ ∃ q, target x = some q ∧ p <:+ q := by
        intro p hp
        rcases hs x (by simp) with ⟨q, d, e | e⟩ | ⟨q, e⟩ | ⟨q, e⟩
        · subst e
          simp only [Txn.step] at hx
          rcases copy_moves t hg q (.file d) with ⟨t2, c, e, e2, m⟩ | ⟨t2, _, _, e, _⟩
          · rw [e] at hx; simp at hx; subst hx
            rcases (m.copied p).1 hp with h | h | h
            · exact .inl h
            · exact .inr ⟨q, rfl, by rw [h.1]; exact List.suffix_refl _⟩
            · exact .inr ⟨q, rfl, h.2.2.1⟩
          · rw [e] at hx; cases hx
        · subst e
          have hcp : t1.copied = t.copied := by
            simp only [Txn.step, Txn.write] at hx
            split at hx
            · cases hx
            · split at hx
              · simp at hx; rw [← hx]
              · cases hx
          rw [hcp] at hp; exact .inl hp
        · subst e
          have hcp : t1.copied = addPath q t.copied := by
            simp only [Txn.step, Txn.touch] at hx
            simp at hx; rw [← hx]
          rw [hcp, mem_addPath] at hp
          rcases hp with hp | hp
          · exact .inl hp
          · exact .inr ⟨q, rfl, by rw [hp]; exact List.suffix_refl _⟩
        · subst e
          simp only [Txn.step] at hx
          rcases mkdir_moves t hg q with ⟨t2, e, m⟩ | e
          · rw [e] at hx; simp at hx; subst hx
            rcases (m.copied p).1 hp with h | h | h
            · exact .inl h
            · exact .inr ⟨q, rfl, by rw [h.1]; exact List.suffix_refl _⟩
            · exact .inr ⟨q, rfl, h.2.2.1⟩
          · rw [e] at hx; cases hx
      intro p hp
      rcases ih p hp with h | ⟨y, hy, h⟩
      · rcases key p h with h | h
        · exact .inl h
        · exact .inr ⟨x, by simp, h⟩
      · exact .inr ⟨y, by simp [hy], h⟩

theorem validName_pyc {n tag : Text} (h : ValidName (n ++ t!".py")) (ht : '/' ∉ tag) : ValidName (n ++ '.' :: tag ++ t!".pyc") := by
  obtain ⟨_, h2, _⟩ := h
  have hl : 4 ≤ (n ++ '.' :: tag ++ t!".pyc").length := by simp; omega
  refine ⟨?_, ?_, ?_, ?_⟩
  · intro e; rw [e] at hl; simp at hl
  · simp only [List.mem_append, List.mem_cons, not_or] at h2 ⊢
    refine ⟨⟨h2.1, by decide, ht⟩, by decide⟩
  · intro e; rw [e] at hl; simp at hl
  · intro e; rw [e] at hl; simp at hl

theorem pyc_valid {tag : Text} {q p : Path} (h : Pyc tag q p) (hq : ∀ c ∈ q, ValidName c) (ht : '/' ∉ tag) :
    p ≠ [] ∧ ∀ c ∈ p, ValidName c := by
  obtain ⟨n, dir, hn, rfl, rfl⟩ := h
  refine ⟨by simp, ?_⟩
  intro c hc
  rcases List.mem_cons.1 hc with rfl | hc
  · exact validName_pyc (hq _ (by simp)) ht
  · rcases List.mem_cons.1 hc with rfl | hc
    · unfold ValidName; decide
    · exact hq c (by simp [hc])

theorem puts_ne_nil {tg : Target} {patch : C → C} {site : Path} {stem : Text} {tree : Sources C} {p : Path} {c : C}
    (h : Puts tg patch site stem tree p c) : p ≠ [] := by
  cases h with
  | plain a _ _ => intro e; exact FileIn.ne_nil a (List.append_eq_nil_iff.1 e).1
  | data _ b _ _ => intro e; exact b (List.append_eq_nil_iff.1 e).1
  | script a => simp

/-- A file among the copied paths after compilation. -/
theorem Stages.copiedFile3 {fm : Formats C S} {tl : Tools C S} {tg : Target} {content : Path} {tree : Sources C} {request : Option C} {info : C}
    {fs fs' : FS C} {stem : Text} {site : Path} {entries : List (Entry C)} {records : List (Rec S)} {t1 t2 : Txn C}
    (st : Stages fm tl tg content tree request info fs fs' stem site entries records t1 t2) (hord : ∀ l p, p ∈ tl.order l ↔ p ∈ l) {p : Path} {c : C}
    (hg : Good fs) (hp : p ∈ (compileAll tl t2).copied) (hc : Dict.get (compileAll tl t2).fs p = some (.file c)) :
    Brings tg tl.patch site stem tree entries p ∨ ∃ q r, Pyc tl.tag q p ∧ q <:+ r ∧
      (Brings tg tl.patch site stem tree entries r ∨ Makes tg site stem tree r) := by
  obtain ⟨l1, l2, l3, l4, l5, l6⟩ := launchers_ok tg.scripts entries t1 t2 st.good1 st.launched
  have hin : ∀ q ∈ t2.copied, ∃ r, q <:+ r ∧ (Brings tg tl.patch site stem tree entries r ∨ Makes tg site stem tree r) := by
    intro q hq
    rcases (l5 q).1 hq with hq | hq
    · rcases run_copied_seen tl.empty _ _ t1 (by exact hg) (fun x hx => ContentCall.simple (st.calls x hx)) st.run q hq with h | ⟨x, hx, r, h3, h4⟩
      · simp at h
      · refine ⟨r, h4, ?_⟩
        cases st.calls x hx with
        | put a b =>
          rcases a with rfl | rfl
          · simp only [target, Option.some.injEq] at h3; subst h3; exact .inl (.inl ⟨_, b⟩)
          · simp only [target, Option.some.injEq] at h3; subst h3; exact .inl (.inl ⟨_, b⟩)
        | touch a => simp only [target, Option.some.injEq] at h3; subst h3; exact .inl (.inl ⟨_, a⟩)
        | mkdir a => simp only [target, Option.some.injEq] at h3; subst h3; exact .inr a
    · exact ⟨q, List.suffix_refl _, .inl (.inr hq)⟩
  rw [compileAll_copied] at hp
  rcases hp with hp | ⟨q, hq, h1, h2⟩
  · rcases compileAll_changes hord st.good2 p with e | ⟨q, hq, e1, _⟩ | ⟨_, e, _⟩
    · rw [e] at hc
      exact .inl (st.copied2 hp hc)
    · obtain ⟨r, hr⟩ := hin q hq
      exact .inr ⟨q, r, e1, hr⟩
    · rw [hc] at e; cases e
  · obtain ⟨r, hr⟩ := hin q ((hord _ _).1 hq)
    exact .inr ⟨q, r, (pyc_iff _ _ _).2 ⟨h1, h2⟩, hr⟩

end WheelInstall

section
variable (fm : Formats C S) (tl : Tools C S) (tg : Target) (content : Path) (tree : Sources C) (request : Option C) (info : C)
  (fs fs' : FS C) (stem : Text) (purelib : Bool) (entries : List (Entry C)) (records : List (Rec S)) (hg : Good fs) (hd : Distinct tree)
  (hord : ∀ l p, p ∈ tl.order l ↔ p ∈ l) (hs : WheelSays fm tree stem purelib entries records)
  (h : install fm tl tg content tree request info fs = (fs', none))

include hg hd hord hs h

/-- C96: RECORD. If the package had no RECORD, it now has one whose lines lead to files that the installation brings and to
compiled modules, each with the signature the wheel gives to that line, or else the hash of the file; and all that the
installation brings, and what it compiles, is recorded. -/
theorem wheel_record
    (hnew : Dict.get fs (t!"RECORD" :: (stem ++ t!".dist-info") :: siteOf tg purelib) = none)
    (hput : ¬ Brings tg tl.patch (siteOf tg purelib) stem tree entries (t!"RECORD" :: (stem ++ t!".dist-info") :: siteOf tg purelib))
    (hnames : ∀ p, Brings tg tl.patch (siteOf tg purelib) stem tree entries p ∨ Makes tg (siteOf tg purelib) stem tree p → ∀ c ∈ p, ValidName c)
    (htag : '/' ∉ tl.tag) :
    ∃ lines, Dict.get fs' (t!"RECORD" :: (stem ++ t!".dist-info") :: siteOf tg purelib) = some (.file (fm.writeRecord lines)) ∧
      (∀ r ∈ lines, (Brings tg tl.patch (siteOf tg purelib) stem tree entries (resolveFrom (siteOf tg purelib) r.file) ∨
          ∃ q a, Pyc tl.tag q (resolveFrom (siteOf tg purelib) r.file) ∧ q <:+ a ∧
            (Brings tg tl.patch (siteOf tg purelib) stem tree entries a ∨ Makes tg (siteOf tg purelib) stem tree a)) ∧
        (InfoFile (siteOf tg purelib) stem (resolveFrom (siteOf tg purelib) r.file) ∨
          ∃ c, Dict.get fs' (resolveFrom (siteOf tg purelib) r.file) = some (.file c) ∧
            ((∃ x ∈ records, x.file = r.file ∧ x.sig ≠ none ∧ r.sig = x.sig) ∨
             ((∀ x ∈ records, x.file = r.file → x.sig = none) ∧ r.sig = some (tl.hash c))))) ∧
      (∀ p c, Dict.get fs' p = some (.file c) → ¬ InfoFile (siteOf tg purelib) stem p →
        (Brings tg tl.patch (siteOf tg purelib) stem tree entries p ∨
          ∃ q, Brings tg tl.patch (siteOf tg purelib) stem tree entries q ∧ Pyc tl.tag q p) →
        ∃ r ∈ lines, resolveFrom (siteOf tg purelib) r.file = p) := by
  obtain ⟨t1, t2, st⟩ := stages hg hd hs h
  obtain ⟨old, ho, hf⟩ := st.finish
  have hR : (t!"RECORD" :: (stem ++ t!".dist-info") :: siteOf tg purelib : Path) = "RECORD".toList :: (stem ++ distInfoExt) :: siteOf tg purelib := by
    rw [record_eq, distInfoExt_eq]
  have hold : old = [] := by
    unfold oldRecords at ho
    split at ho
    · cases ho
    · split at ho
      · simpa using ho.symm
      · cases ho
      · rename_i c e
        rw [← hR] at e
        rcases st.new3 hord e with h1 | h1 | ⟨q, _, h1⟩
        · rw [hnew] at h1; cases h1
        · exact absurd h1 hput
        · obtain ⟨n, dir, _, _, e⟩ := h1
          simp only [List.cons.injEq] at e
          have := getLast_pyc (n ++ t!".py") tl.tag
          rw [take_py, ← e.1] at this
          exact absurd this (by decide)
  subst hold
  have hv : ∀ p, (Brings tg tl.patch (siteOf tg purelib) stem tree entries p ∨ ∃ q r, Pyc tl.tag q p ∧ q <:+ r ∧
      (Brings tg tl.patch (siteOf tg purelib) stem tree entries r ∨ Makes tg (siteOf tg purelib) stem tree r)) → p ≠ [] ∧ ∀ c ∈ p, ValidName c := by
    rintro p (hp | ⟨q, r, h1, h2, h3⟩)
    · refine ⟨?_, hnames p (.inl hp)⟩
      rcases hp with ⟨c, hp⟩ | ⟨e, _, _, rfl⟩
      · exact puts_ne_nil hp
      · simp
    · exact pyc_valid h1 (fun c hc => hnames r h3 c (h2.subset hc)) htag
  refine ⟨signFiles (precomputedOf records) tl.hash (compileAll tl t2).fs (siteOf tg purelib) (tl.order (compileAll tl t2).copied), ?_, ?_, ?_⟩
  · rw [hR, hf, if_neg (by rw [record_eq]; simp), if_neg (by rw [record_eq]; simp), if_neg (by rw [record_eq]; simp), if_pos rfl]
    rfl
  · intro r hr
    rw [mem_signFiles] at hr
    obtain ⟨f, hf1, c, t, hf2, hf3, rfl⟩ := hr
    have hf1 := (hord _ _).1 hf1
    have hb := st.copiedFile3 hord hg hf1 hf2
    obtain ⟨v1, v2⟩ := hv f hb
    obtain ⟨t', h3, h4⟩ := path_to_leads_partial (siteOf tg purelib) f v1 v2 ((siteOf tg purelib).length + 1) (by omega)
    unfold pathIn at hf3
    rw [h3] at hf3
    simp only [Option.some.injEq] at hf3
    subst hf3
    simp only [h4]
    refine ⟨hb, ?_⟩
    by_cases hi : InfoFile (siteOf tg purelib) stem f
    · exact .inl hi
    · refine .inr ⟨c, by rw [st.same hi]; exact hf2, ?_⟩
      cases e : Dict.get (precomputedOf records) t' with
      | none =>
        refine .inr ⟨(precomputed_none t' records [] e).2, rfl⟩
      | some s =>
        rcases precomputed_get t' records [] s e with ⟨b, a, e1, e2⟩ | ⟨e1, _⟩
        · exact .inl ⟨⟨t', some s⟩, by rw [e1]; simp, rfl, by simp, rfl⟩
        · simp [Dict.get] at e1
  · intro p c hp hi hb
    rw [st.same hi] at hp
    have hmem := (hord _ _).2 (st.copied3 hord hb)
    obtain ⟨v1, v2⟩ := hv p (by
      rcases hb with h | ⟨q, h1, h2⟩
      · exact .inl h
      · exact .inr ⟨q, q, h2, List.suffix_refl _, .inl h1⟩)
    obtain ⟨t, h3, h4⟩ := path_to_leads_partial (siteOf tg purelib) p v1 v2 ((siteOf tg purelib).length + 1) (by omega)
    exact ⟨⟨t, some ((Dict.get (precomputedOf records) t).getD (tl.hash c))⟩, (mem_signFiles _ _ _ _ _ _).2 ⟨p, hmem, c, t, hp, h3, rfl⟩, h4⟩

/-- C96: uninstalling what was installed leaves no new file: every file that is left was there before (or another file or
a directory was, in its place). -/
theorem wheel_uninstalls
    (hnew : Dict.get fs (t!"RECORD" :: (stem ++ t!".dist-info") :: siteOf tg purelib) = none)
    (hput : ¬ Brings tg tl.patch (siteOf tg purelib) stem tree entries (t!"RECORD" :: (stem ++ t!".dist-info") :: siteOf tg purelib))
    (hnames : ∀ p, Brings tg tl.patch (siteOf tg purelib) stem tree entries p ∨ Makes tg (siteOf tg purelib) stem tree p → ∀ c ∈ p, ValidName c)
    (htag : '/' ∉ tl.tag)
    (hread : ∀ l, fm.readRecord (fm.writeRecord l) = some l) (pick : List Path → Nat) (c : C) (lines : List (Rec S)) (fs3 : FS C)
    (hrec : Dict.get fs' (t!"RECORD" :: (stem ++ t!".dist-info") :: siteOf tg purelib) = some (.file c))
    (hlines : fm.readRecord c = some lines)
    (hun : uninstall pick ((stem ++ t!".dist-info") :: siteOf tg purelib) (lines.map (·.file)) fs' = some fs3) (p : Path) (d : C)
    (hp : Dict.get fs3 p = some (.file d)) : Dict.get fs p ≠ none := by
  intro h0
  obtain ⟨lines', h1, h2, h3⟩ := wheel_record fm tl tg content tree request info fs fs' stem purelib entries records hg hd hord hs h
    hnew hput hnames htag
  rw [h1] at hrec
  simp only [Option.some.injEq, Node.file.injEq] at hrec
  subst hrec
  rw [hread] at hlines
  simp only [Option.some.injEq] at hlines
  subst hlines
  obtain ⟨t1, t2, st⟩ := stages hg hd hs h
  obtain ⟨hr1, hr2⟩ := uninstall_removes_recorded pick _ _ fs' fs3 st.goodEnd.tree hun
  have hsub := (uninstall_touches_only_partial pick _ _ fs' fs3 hun).1 p _ hp
  have hnd : ¬ ((stem ++ t!".dist-info") :: siteOf tg purelib) <:+ p := by
    intro e
    rw [hr2 p e] at hp; cases hp
  have hi : ¬ InfoFile (siteOf tg purelib) stem p := by
    rintro ⟨n, _, rfl⟩
    exact hnd (List.suffix_cons _ _)
  have h4 := hsub
  rw [st.same hi] at h4
  rcases st.new3 hord h4 with e | e
  · rw [h0] at e; cases e
  · obtain ⟨r, hr, he⟩ := h3 p d hsub hi e
    have : Recorded ((stem ++ t!".dist-info") :: siteOf tg purelib) (lines'.map (·.file)) p :=
      .inl ⟨r.file, List.mem_map.2 ⟨r, hr, rfl⟩, he.symm⟩
    rw [hr1 p this] at hp; cases hp

end

end Pkm
