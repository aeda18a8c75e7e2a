import Verif.Environments.SharedInstallLemmas
set_option linter.unusedVariables false
set_option linter.unusedSimpArgs false
set_option linter.unusedSectionVars false
/-
Lemmas about linking a shared package.
-/
namespace Pkm
namespace SharedPkg
open Files Files.FS Conda Tags Spec

variable {C S : Type}

/-- A step after which a file that has the content `c` still has it. -/
def Keeps (p : Path) (c : C) : Call C → Prop
  | .write q d => q = p → d = c
  | .copy (.file d) q => q <:+ p → q = p ∧ d = c
  | .copy _ _ => True
  | .rm q => ¬ q <:+ p
  | _ => True

theorem after_keeps (empty : C) (p : Path) (c : C) (f : Path → Option (Node C)) (s : Call C) (hf : f p = some (.file c))
    (hk : Keeps p c s) : after empty f s p = some (.file c) := by
  cases s with
  | mkdir q => simp [after, hf]
  | copy src q =>
    cases src with
    | file d =>
      simp only [Keeps] at hk
      simp only [after]
      by_cases he : p = q
      · rw [if_pos he, (hk (by rw [he]; exact List.suffix_refl _)).2]
      · rw [if_neg he, if_neg (fun e => he (hk e).1.symm)]
        simp [hf]
    | dir => exact hf
    | missing => exact hf
  | rm q => simp only [Keeps] at hk; simp [after, hf, hk]
  | touch q r => simp [after, hf]
  | write q d =>
    simp only [Keeps] at hk
    simp only [after]
    by_cases he : p = q
    · rw [if_pos he, hk he.symm]
    · rw [if_neg he, hf]
  | fail => exact hf

theorem foldl_keeps (empty : C) (p : Path) (c : C) : ∀ (body : List (Call C)) (f : Path → Option (Node C)),
    f p = some (.file c) → (∀ s ∈ body, Keeps p c s) → body.foldl (after empty) f p = some (.file c)
  | [], f, hf, _ => hf
  | s :: body, f, hf, hk => by
    rw [List.foldl_cons]
    exact foldl_keeps empty p c body _ (after_keeps empty p c f s hf (hk s (by simp))) (fun s hs => hk s (by simp [hs]))

theorem foldl_makes (empty : C) (p : Path) (c : C) : ∀ (body : List (Call C)) (f : Path → Option (Node C)),
    (Call.write p c ∈ body ∨ Call.copy (.file c) p ∈ body) → (∀ s ∈ body, Keeps p c s) →
    body.foldl (after empty) f p = some (.file c)
  | [], f, hm, _ => by simp at hm
  | s :: body, f, hm, hk => by
    rw [List.foldl_cons]
    by_cases hs : Call.write p c ∈ body ∨ Call.copy (.file c) p ∈ body
    · exact foldl_makes empty p c body _ hs (fun s hs => hk s (by simp [hs]))
    · apply foldl_keeps empty p c body _ ?_ (fun s hs => hk s (by simp [hs]))
      rcases hm with e | e
      · rcases List.mem_cons.1 e with e | e
        · rw [← e]; simp [after]
        · exact absurd (.inl e) hs
      · rcases List.mem_cons.1 e with e | e
        · rw [← e]; simp [after]
        · exact absurd (.inr e) hs

/-- Steps that do not work on the path. -/
theorem foldl_same (empty : C) (p : Path) (v : Option (Node C)) : ∀ (body : List (Call C)) (f : Path → Option (Node C)),
    f p = v → (∀ s ∈ body, ∀ q, target s = some q → ¬ q <:+ p ∧ (v = none → ¬ p <:+ q)) →
    body.foldl (after empty) f p = v
  | [], f, hf, _ => hf
  | s :: body, f, hf, hk => by
    rw [List.foldl_cons]
    apply foldl_same empty p v body _ ?_ (fun s hs => hk s (by simp [hs]))
    have h := hk s (by simp)
    cases s with
    | mkdir q =>
      simp only [after]
      rw [if_neg (fun e => (h q rfl).2 (hf ▸ e.1) e.2), hf]
    | copy src q =>
      cases src with
      | file d =>
        simp only [after]
        have hq := h q rfl
        rw [if_neg (fun e : p = q => hq.1 (e ▸ List.suffix_refl _)), if_neg hq.1, if_neg (fun e => hq.2 (hf ▸ e.1) e.2), hf]
      | dir => exact hf
      | missing => exact hf
    | rm q => simp only [after]; rw [if_neg (h q rfl).1, hf]
    | touch q r =>
      simp only [after]
      rw [if_neg (fun e : r = true ∧ p = q ∧ f p = none => (h q rfl).1 (e.2.1 ▸ List.suffix_refl _)), hf]
    | write q d =>
      simp only [after]
      rw [if_neg (fun e : p = q => (h q rfl).1 (e ▸ List.suffix_refl _)), hf]
    | fail => exact hf

/-- The steps that change a file. -/
theorem foldl_changed (empty : C) (p : Path) (c : C) : ∀ (body : List (Call C)) (f : Path → Option (Node C)),
    (∀ s ∈ body, ∀ q, s ≠ .touch q true) →
    body.foldl (after empty) f p = some (.file c) → f p = some (.file c) ∨ Call.write p c ∈ body ∨ Call.copy (.file c) p ∈ body
  | [], f, _, h => .inl h
  | s :: body, f, ht, h => by
    rw [List.foldl_cons] at h
    rcases foldl_changed empty p c body _ (fun s hs => ht s (by simp [hs])) h with e | e | e
    · have h := ht s (by simp)
      cases s with
      | mkdir q =>
        simp only [after] at e
        split at e
        · cases e
        · exact .inl e
      | copy src q =>
        cases src with
        | file d =>
          simp only [after] at e
          split at e
          · rename_i he
            subst he
            simp only [Option.some.injEq, Node.file.injEq] at e
            subst e
            exact .inr (.inr (by simp))
          · split at e
            · cases e
            · split at e
              · cases e
              · exact .inl e
        | dir => exact .inl e
        | missing => exact .inl e
      | rm q =>
        simp only [after] at e
        split at e
        · cases e
        · exact .inl e
      | touch q r =>
        cases r with
        | true => exact absurd rfl (h q)
        | false => simp only [after] at e; exact .inl (by simpa using e)
      | write q d =>
        simp only [after] at e
        split at e
        · rename_i he
          subst he
          simp only [Option.some.injEq, Node.file.injEq] at e
          subst e
          exact .inr (.inl (by simp))
        · exact .inl e
      | fail => exact .inl e
    · exact .inr (.inl (by simp [e]))
    · exact .inr (.inr (by simp [e]))

/-! ### what a transaction marks -/

theorem step_marks (empty : C) (t t' : Txn C) (hg : Good t.fs) (s : Call C) (h : t.step empty s = .ok t') :
    (∀ p ∈ t.copied, p ∈ t'.copied) ∧ (∀ src p, s = .copy src p → p ∈ t'.copied) ∧ (∀ p r, s = .touch p r → p ∈ t'.copied) := by
  by_cases hw : ∃ p d, s = .write p d
  · obtain ⟨p, d, rfl⟩ := hw
    simp only [Txn.step, Txn.write] at h
    refine ⟨?_, by simp, by simp⟩
    split at h
    · simp at h
    · split at h
      · simp only [Out.ok.injEq] at h; rw [← h]; exact fun _ h => h
      · simp at h
  · obtain ⟨a, b, c⟩ := step_copied empty t t' hg s (fun p d e => hw ⟨p, d, e⟩) h
    refine ⟨a, c, ?_⟩
    rintro p r rfl
    simp only [Txn.step, Txn.touch] at h
    split at h
    · split at h
      · simp at h; rw [← h, mem_addPath]; exact .inr rfl
      · simp at h
    · simp at h; rw [← h, mem_addPath]; exact .inr rfl

theorem run_marks (empty : C) : ∀ (body : List (Call C)) (t t' : Txn C), Good t.fs → Txn.run empty body t = .ok t' →
    (∀ p ∈ t.copied, p ∈ t'.copied) ∧ (∀ src p, Call.copy src p ∈ body → p ∈ t'.copied) ∧
    (∀ p r, Call.touch p r ∈ body → p ∈ t'.copied)
  | [], t, t', hg, h => by
    simp only [Txn.run, Out.ok.injEq] at h
    subst h
    exact ⟨fun _ h => h, by simp, by simp⟩
  | s :: body, t, t', hg, h => by
    unfold Txn.run at h
    cases hs : t.step empty s with
    | raised t1 => rw [hs] at h; simp at h
    | ok t1 =>
      rw [hs] at h
      obtain ⟨a1, a2, a3⟩ := step_marks empty t t1 hg s hs
      obtain ⟨b1, b2, b3⟩ := run_marks empty body t1 t' (step_ok empty t t1 hg s hs).2 h
      refine ⟨fun p hp => b1 p (a1 p hp), ?_, ?_⟩
      · intro src p hm
        rcases List.mem_cons.1 hm with e | e
        · exact b1 p (a2 src p e.symm)
        · exact b2 src p e
      · intro p r hm
        rcases List.mem_cons.1 hm with e | e
        · exact b1 p (a3 p r e.symm)
        · exact b3 p r e

/-! ### the steps of a link -/

theorem mem_children (fs : FS C) (d : Path) (x : Text) : x ∈ children fs d ↔ ∃ n, (x :: d, n) ∈ fs := by
  unfold children
  rw [List.mem_filterMap]
  constructor
  · rintro ⟨⟨p, n⟩, hm, h⟩
    cases p with
    | nil => simp at h
    | cons y p =>
      simp only at h
      split at h
      · rename_i he
        simp only [Option.some.injEq] at h
        subst h; subst he
        exact ⟨n, hm⟩
      · cases h
  · rintro ⟨n, hm⟩
    exact ⟨_, hm, by simp⟩

theorem mem_children_get (fs : FS C) (hw : Dict.Wf fs) (d : Path) (x : Text) :
    x ∈ children fs d ↔ ∃ n, Dict.get fs (x :: d) = some n := by
  rw [mem_children]
  constructor
  · rintro ⟨n, h⟩; exact ⟨n, Dict.mem_get _ _ _ hw h⟩
  · rintro ⟨n, h⟩; exact ⟨n, Dict.get_mem _ _ _ h⟩

/-- The kinds of steps of a link. -/
inductive LinkStep (w : World C S) (fs : FS C) (sh : Path) : Call C → Prop
  | pth : LinkStep w fs sh (.write (linkPth w fs sh) (w.pthText (siteNameOf fs sh :: sh)))
  | entry (e : Text × C) (h : e ∈ entriesAt w fs (t!"dist-info" :: sh)) : LinkStep w fs sh (.write (e.1 :: w.scripts) e.2)
  | script (n : Text) (c : C) (h : Dict.get fs (n :: t!"bin" :: sh) = some (.file c)) :
      LinkStep w fs sh (.write (n :: w.scripts) (w.patched c))
  | marker : LinkStep w fs sh (.write (t!"SHARED" :: linkInfo w fs sh) (w.marker sh))
  | mkdir (rel : Path) : LinkStep w fs sh (.mkdir (rel ++ linkInfo w fs sh))
  | copy (rel : Path) (c : C) (hr : rel ≠ []) (hn : "RECORD".toList ∉ rel)
      (h : Dict.get fs (rel ++ t!"dist-info" :: sh) = some (.file c)) :
      LinkStep w fs sh (.copy (.file c) (rel ++ linkInfo w fs sh))
  | touch (p : Path) (c : C) (h : LinkStep w fs sh (.write p c)) : LinkStep w fs sh (.touch p false)
  | fail : LinkStep w fs sh .fail

theorem mem_copyInfo (fs : FS C) (hw : Dict.Wf fs) (src dst : Path) (s : Call C) : s ∈ copyInfo fs src dst ↔
    s = .mkdir dst ∨ (∃ rel, rel ≠ [] ∧ "RECORD".toList ∉ rel ∧ Dict.get fs (rel ++ src) = some .dir ∧ s = .mkdir (rel ++ dst)) ∨
    (∃ rel c, rel ≠ [] ∧ "RECORD".toList ∉ rel ∧ Dict.get fs (rel ++ src) = some (.file c) ∧ s = .copy (.file c) (rel ++ dst)) := by
  unfold copyInfo
  rw [List.mem_cons, List.mem_filterMap]
  constructor
  · rintro (h | ⟨⟨p, n⟩, hm, h⟩)
    · exact .inl h
    · right
      simp only at h
      cases hr : relTo p src with
      | none => rw [hr] at h; simp at h
      | some rel =>
        rw [hr] at h
        have hp := relTo_some hr
        subst hp
        simp only at h
        split at h
        · cases h
        · rename_i hc
          rw [not_or] at hc
          have hget := Dict.mem_get _ _ _ hw hm
          cases n with
          | dir =>
            simp only [Option.some.injEq] at h
            exact .inl ⟨rel, hc.1, hc.2, hget, h.symm⟩
          | file c =>
            simp only [Option.some.injEq] at h
            exact .inr ⟨rel, c, hc.1, hc.2, hget, h.symm⟩
  · rintro (h | ⟨rel, h1, h2, h3, rfl⟩ | ⟨rel, c, h1, h2, h3, rfl⟩)
    · exact .inl h
    · right
      refine ⟨_, Dict.get_mem _ _ _ h3, ?_⟩
      simp only [relTo_append]
      rw [if_neg (by simp only [not_or]; exact ⟨h1, h2⟩)]
    · right
      refine ⟨_, Dict.get_mem _ _ _ h3, ?_⟩
      simp only [relTo_append]
      rw [if_neg (by simp only [not_or]; exact ⟨h1, h2⟩)]

theorem mem_written (p : Path) (c : C) (s : Call C) : s ∈ written p c ↔ s = .write p c ∨ s = .touch p false := by
  unfold written; simp

theorem linkCalls_kind (w : World C S) (fs : FS C) (hw : Dict.Wf fs) (sh : Path) (s : Call C) (h : s ∈ linkCalls w fs sh) :
    LinkStep w fs sh s := by
  unfold linkCalls at h
  simp only [List.mem_append, List.mem_flatMap, mem_written] at h
  rcases h with (((h | ⟨e, he, h⟩) | ⟨n, hn, h⟩) | h) | h
  · rcases h with rfl | rfl
    · exact .pth
    · exact .touch _ _ .pth
  · rcases h with rfl | rfl
    · exact .entry e he
    · exact .touch _ _ (.entry e he)
  · unfold linkScript at h
    split at h
    · rename_i c hc
      rw [mem_written] at h
      rcases h with rfl | rfl
      · exact .script n c hc
      · exact .touch _ _ (.script n c hc)
    · rw [List.mem_singleton] at h; rw [h]; exact .fail
  · rw [mem_copyInfo fs hw] at h
    rcases h with rfl | ⟨rel, _, _, _, rfl⟩ | ⟨rel, c, h1, h2, h3, rfl⟩
    · exact .mkdir []
    · exact .mkdir rel
    · exact .copy rel c h1 h2 h3
  · rcases h with rfl | rfl
    · exact .marker
    · exact .touch _ _ .marker

theorem linkCalls_mem (w : World C S) (fs : FS C) (hw : Dict.Wf fs) (sh : Path) (p : Path) (c : C) :
    (LinkStep w fs sh (.write p c) → Call.write p c ∈ linkCalls w fs sh ∧ Call.touch p false ∈ linkCalls w fs sh) ∧
    (∀ rel, rel ≠ [] → "RECORD".toList ∉ rel → Dict.get fs (rel ++ t!"dist-info" :: sh) = some (.file c) →
      Call.copy (.file c) (rel ++ linkInfo w fs sh) ∈ linkCalls w fs sh) := by
  constructor
  · intro h
    unfold linkCalls
    simp only [List.mem_append, List.mem_flatMap, mem_written]
    generalize hs : Call.write p c = s at h
    cases h with
    | pth => cases hs; exact ⟨.inl (.inl (.inl (.inl (.inl rfl)))), .inl (.inl (.inl (.inl (.inr rfl))))⟩
    | entry e he =>
      cases hs
      exact ⟨.inl (.inl (.inl (.inr ⟨e, he, .inl rfl⟩))), .inl (.inl (.inl (.inr ⟨e, he, .inr rfl⟩)))⟩
    | script n c' hc =>
      cases hs
      have hn : n ∈ children fs (t!"bin" :: sh) := (mem_children_get fs hw _ _).2 ⟨_, hc⟩
      have hl : linkScript w fs sh n = written (n :: w.scripts) (w.patched c') := by unfold linkScript; rw [hc]
      exact ⟨.inl (.inl (.inr ⟨n, hn, by rw [hl, mem_written]; exact .inl rfl⟩)),
        .inl (.inl (.inr ⟨n, hn, by rw [hl, mem_written]; exact .inr rfl⟩))⟩
    | marker => cases hs; exact ⟨.inr (.inl rfl), .inr (.inr rfl)⟩
    | mkdir rel => cases hs
    | copy rel c' _ _ _ => cases hs
    | touch _ _ _ => cases hs
    | fail => cases hs
  · intro rel h1 h2 h3
    unfold linkCalls
    simp only [List.mem_append]
    exact .inl (.inr ((mem_copyInfo fs hw _ _ _).2 (.inr (.inr ⟨rel, c, h1, h2, h3, rfl⟩))))

/-- A successful link. -/
structure Linked' (w : World C S) (fs : FS C) (sh : Path) (fs' : FS C) : Prop where
  pth : Dict.get fs' (linkPth w fs sh) = some (.file (w.pthText (siteNameOf fs sh :: sh)))
  script : ∀ n c, Dict.get fs (n :: t!"bin" :: sh) = some (.file c) → Dict.get fs' (n :: w.scripts) = some (.file (w.patched c))
  entry : ∀ e ∈ entriesAt w fs (t!"dist-info" :: sh), (∀ e' ∈ entriesAt w fs (t!"dist-info" :: sh), e'.1 = e.1 → e' = e) →
    (∀ c, Dict.get fs (e.1 :: t!"bin" :: sh) ≠ some (.file c)) → Dict.get fs' (e.1 :: w.scripts) = some (.file e.2)
  info : ∀ rel c, rel ≠ [] → rel ≠ [t!"SHARED"] → "RECORD".toList ∉ rel → Dict.get fs (rel ++ t!"dist-info" :: sh) = some (.file c) →
    Dict.get fs' (rel ++ linkInfo w fs sh) = some (.file c)
  marker : Dict.get fs (t!"SHARED" :: t!"dist-info" :: sh) = none →
    Dict.get fs' (t!"SHARED" :: linkInfo w fs sh) = some (.file (w.marker sh))
  /-- what is not a target, above or below one -/
  same : ∀ p, ¬ linkInfo w fs sh <:+ p → ¬ linkPth w fs sh <:+ p →
    (∀ x, ((∃ c, (x, c) ∈ entriesAt w fs (t!"dist-info" :: sh)) ∨ ∃ c, Dict.get fs (x :: t!"bin" :: sh) = some (.file c)) →
      ¬ (x :: w.scripts) <:+ p) →
    (Dict.get fs p = none → ¬ p <:+ linkInfo w fs sh) → (Dict.get fs p = none → ¬ p <:+ linkPth w fs sh) →
    (Dict.get fs p = none → ¬ p <:+ w.scripts) → Dict.get fs' p = Dict.get fs p
  good : Good fs'
  /-- RECORD lists what the link made -/
  record : ∃ recs, Dict.get fs' ("RECORD".toList :: linkInfo w fs sh) = some (.file (w.recordText recs)) ∧
    ∀ p c, p ≠ "RECORD".toList :: linkInfo w fs sh → Dict.get fs' p = some (.file c) → Dict.get fs p ≠ some (.file c) →
      (∀ t ∈ p, Spec.ValidName t) → ∃ r ∈ recs, resolveFrom (sitePath w fs sh) r.file = p ∧ r.sig = some (w.hash c)

theorem linkShared_spec (w : World C S) (fs fs' : FS C) (sh : Path) (hg : Good fs)
    (hap : Apart2 w.scripts (sitePath w fs sh)) (h : linkShared w sh fs = (fs', true)) : Linked' w fs sh fs' := by
  unfold linkShared at h
  cases hr : Txn.run w.empty (linkCalls w fs sh) ⟨fs, [], []⟩ with
  | raised t => rw [hr] at h; simp at h
  | ok t =>
  rw [hr] at h
  simp only at h
  split at h
  · simp at h
  rename_i hnd
  simp only [Prod.mk.injEq, and_true] at h
  subst h
  obtain ⟨hfs, hgt⟩ := run_ok w.empty (linkCalls w fs sh) ⟨fs, [], []⟩ t hg hr
  have hmarks := run_marks w.empty (linkCalls w fs sh) ⟨fs, [], []⟩ t hg hr
  simp only at hfs
  have hkind := linkCalls_kind w fs hg.wf sh
  -- shapes of paths
  have hinfo : linkInfo w fs sh = (packagePrefix w ++ t!".dist-info") :: sitePath w fs sh := rfl
  have hpth : linkPth w fs sh = (packagePrefix w ++ t!".pth") :: sitePath w fs sh := rfl
  have hsiteinfo : sitePath w fs sh <:+ linkInfo w fs sh := by rw [hinfo]; exact List.suffix_cons _ _
  have hpi : linkPth w fs sh ≠ linkInfo w fs sh := by
    rw [hinfo, hpth]
    intro e
    simp only [List.cons.injEq, and_true] at e
    have e2 := List.append_cancel_left e
    exact absurd e2 (by decide)
  have hpi2 : ∀ rel, ¬ rel ++ linkInfo w fs sh <:+ linkPth w fs sh := by
    intro rel e
    have hl := e.length_le
    rw [List.length_append, hinfo, hpth, List.length_cons, List.length_cons] at hl
    have : rel = [] := List.length_eq_zero_iff.1 (by omega)
    subst this
    exact hpi (e.eq_of_length (by rw [List.nil_append, hinfo, hpth]; simp)).symm
  have hs1 : ∀ x y rel, ¬ (x :: w.scripts) = rel ++ y :: sitePath w fs sh := by
    intro x y rel e
    exact hap.no (List.suffix_cons x _) (e ▸ (List.suffix_cons y _).trans (List.suffix_append rel _))
  have hs2 : ∀ x rel, ¬ (rel ++ linkInfo w fs sh) <:+ (x :: w.scripts) := by
    intro x rel e
    exact hap.no (List.suffix_cons x _) ((hsiteinfo.trans (List.suffix_append rel _)).trans e)
  have hpar : ∀ rel p, rel ++ linkInfo w fs sh <:+ p → ∃ r2, p = r2 ++ linkInfo w fs sh := by
    rintro rel p ⟨a, rfl⟩
    exact ⟨a ++ rel, by simp⟩
  have hrec : ∀ p, p ≠ "RECORD".toList :: linkInfo w fs sh → Dict.get (Dict.put t.fs ("RECORD".toList :: linkInfo w fs sh)
      (.file (w.recordText (recordsAt w t.fs (linkInfo w fs sh) ++ signFiles [] w.hash t.fs (sitePath w fs sh) t.copied)))) p =
      (linkCalls w fs sh).foldl (after w.empty) (Dict.get fs) p := by
    intro p hp
    rw [Dict.get_put, if_neg (fun e => hp e.symm), hfs]
  have hgood' : Good (Dict.put t.fs ("RECORD".toList :: linkInfo w fs sh)
      (.file (w.recordText (recordsAt w t.fs (linkInfo w fs sh) ++ signFiles [] w.hash t.fs (sitePath w fs sh) t.copied)))) := by
    apply good_write hgt
    · intro e; apply hnd; unfold isDir; rw [e]
    · -- the dist-info directory exists: the marker was written to it
      have hm := (linkCalls_mem w fs hg.wf sh (t!"SHARED" :: linkInfo w fs sh) (w.marker sh)).1 .marker
      have hk : ∀ s ∈ linkCalls w fs sh, ∃ n, Dict.get t.fs (t!"SHARED" :: linkInfo w fs sh) = some n := by
        intro s hs
        rw [hfs]
        -- the last steps write the marker
        unfold linkCalls
        rw [List.foldl_append]
        simp [written, after]
      obtain ⟨n, hn⟩ := hk _ hm.1
      unfold isDir
      rw [hgt.tree _ _ _ hn]
  refine ⟨?_, ?_, ?_, ?_, ?_, ?_, hgood', ?_⟩
  · rw [hrec _ (by rw [hpth, hinfo]; intro e; have := congrArg List.length e; simp at this)]
    apply foldl_makes
    · exact .inl ((linkCalls_mem w fs hg.wf sh _ _).1 .pth).1
    · intro s hs
      have h := hkind s hs
      cases h with
      | pth => exact fun _ => rfl
      | entry e he => intro e'; exact absurd e' (hs1 _ _ [])
      | script n c hc => intro e'; exact absurd e' (hs1 _ _ [])
      | marker => intro e'; exact absurd (e' ▸ List.suffix_refl _) (hpi2 [t!"SHARED"])
      | mkdir rel => trivial
      | copy rel c _ _ _ => intro e'; exact absurd e' (hpi2 rel)
      | touch p c _ => trivial
      | fail => trivial
  · intro n c hc
    rw [hrec _ (by rw [hinfo]; exact fun e => hs1 n _ ["RECORD".toList] e)]
    -- the scripts come after the entry points
    unfold linkCalls
    rw [List.append_assoc, List.append_assoc, List.append_assoc, ← List.append_assoc, List.foldl_append]
    apply foldl_makes
    · left
      rw [List.mem_append, List.mem_flatMap]
      left
      exact ⟨n, (mem_children_get fs hg.wf _ _).2 ⟨_, hc⟩, by unfold linkScript; rw [hc, mem_written]; exact .inl rfl⟩
    · intro s hs
      simp only [List.mem_append, List.mem_flatMap, mem_written] at hs
      rcases hs with ⟨m, _, hs⟩ | hs | hs
      · unfold linkScript at hs
        split at hs
        · rename_i d hd
          rw [mem_written] at hs
          rcases hs with rfl | rfl
          · intro e
            simp only [List.cons.injEq, and_true] at e
            subst e
            rw [hc] at hd
            simp only [Option.some.injEq, Node.file.injEq] at hd
            rw [hd]
          · trivial
        · rw [List.mem_singleton] at hs; rw [hs]; trivial
      · rw [mem_copyInfo fs hg.wf] at hs
        rcases hs with rfl | ⟨rel, _, _, _, rfl⟩ | ⟨rel, d, _, _, _, rfl⟩
        · trivial
        · trivial
        · intro e; exact absurd e (hs2 n rel)
      · rcases hs with rfl | rfl
        · intro e; exact absurd (e ▸ List.suffix_refl _) (hs2 n [t!"SHARED"])
        · trivial
  · intro e he huniq hnone
    rw [hrec _ (by rw [hinfo]; exact fun e' => hs1 e.1 _ ["RECORD".toList] e')]
    apply foldl_makes
    · exact .inl ((linkCalls_mem w fs hg.wf sh _ _).1 (.entry e he)).1
    · intro s hs
      have h := hkind s hs
      cases h with
      | pth => intro e'; exact absurd e'.symm (hs1 _ _ [])
      | entry e2 he2 =>
        intro e'
        simp only [List.cons.injEq, and_true] at e'
        rw [huniq e2 he2 e']
      | script n c hc =>
        intro e'
        simp only [List.cons.injEq, and_true] at e'
        subst e'
        exact absurd hc (hnone c)
      | marker => intro e'; exact absurd (e' ▸ List.suffix_refl _) (hs2 e.1 [t!"SHARED"])
      | mkdir rel => trivial
      | copy rel c _ _ _ => intro e'; exact absurd e' (hs2 e.1 rel)
      | touch p c _ => trivial
      | fail => trivial
  · intro rel c hne hnS hnR hc
    rw [hrec _ (by
      intro e
      have : rel = ["RECORD".toList] := append_left_inj' (root := linkInfo w fs sh) e
      rw [this] at hnR; simp at hnR)]
    apply foldl_makes
    · exact .inr ((linkCalls_mem w fs hg.wf sh [] c).2 rel hne hnR hc)
    · intro s hs
      have h := hkind s hs
      cases h with
      | pth =>
        intro e'
        have h1 := hpi2 rel
        rw [← e'] at h1
        exact absurd (List.suffix_refl _) h1
      | entry e2 he2 => intro e'; rw [hinfo] at e'; exact absurd e' (hs1 _ _ rel)
      | script n d hd => intro e'; rw [hinfo] at e'; exact absurd e' (hs1 _ _ rel)
      | marker =>
        intro e'
        have : [t!"SHARED"] = rel := append_left_inj' (root := linkInfo w fs sh) e'
        exact absurd this.symm hnS
      | mkdir rel => trivial
      | copy rel2 d h1 h2 h3 =>
        intro e'
        -- a file lies not below another one
        obtain ⟨a, ha⟩ := e'
        rw [← List.append_assoc] at ha
        have hrel := append_left_inj' ha
        subst hrel
        by_cases hh : a = []
        · subst hh
          rw [List.nil_append] at hc ⊢
          rw [h3] at hc
          simp only [Option.some.injEq, Node.file.injEq] at hc
          exact ⟨rfl, hc⟩
        · exfalso
          have := hg.ancestors _ _ hc (rel2 ++ t!"dist-info" :: sh) (by rw [List.append_assoc]; exact List.suffix_append _ _) (by
            intro e
            rw [List.append_assoc] at e
            have := congrArg List.length e
            simp only [List.length_append] at this
            exact hh (List.length_eq_zero_iff.1 (by omega)))
          rw [h3] at this; cases this
      | touch p c _ => trivial
      | fail => trivial
  · intro hS
    rw [hrec _ (by intro e; simp only [List.cons.injEq, and_true] at e; exact absurd e (by decide))]
    apply foldl_makes
    · exact .inl ((linkCalls_mem w fs hg.wf sh _ _).1 .marker).1
    · intro s hs
      have h := hkind s hs
      cases h with
      | pth =>
        intro e'
        have h1 := hpi2 [t!"SHARED"]
        rw [e'] at h1
        exact absurd (List.suffix_refl _) h1
      | entry e2 he2 => intro e'; rw [hinfo] at e'; exact absurd e' (hs1 _ _ [t!"SHARED"])
      | script n d hd => intro e'; rw [hinfo] at e'; exact absurd e' (hs1 _ _ [t!"SHARED"])
      | marker => exact fun _ => rfl
      | mkdir rel => trivial
      | copy rel2 d h1 h2 h3 =>
        intro e'
        have hl := e'.length_le
        rw [List.length_append, List.length_cons] at hl
        have hl2 : rel2.length ≠ 0 := fun e => h1 (List.length_eq_zero_iff.1 e)
        have he := e'.eq_of_length (by rw [List.length_append, List.length_cons]; omega)
        have : rel2 = [t!"SHARED"] := append_left_inj' (root := linkInfo w fs sh) he
        subst this
        rw [List.singleton_append, hS] at h3; cases h3
      | touch p c _ => trivial
      | fail => trivial
  · intro p h1 h2 h3 h4 h5 h6
    rw [hrec _ (by rintro rfl; exact h1 (List.suffix_cons _ _))]
    apply foldl_same w.empty p (Dict.get fs p) _ _ rfl
    intro s hs q hq
    have hW : ∀ q c, LinkStep w fs sh (.write q c) → ¬ q <:+ p ∧ (Dict.get fs p = none → ¬ p <:+ q) := by
      intro q c h
      generalize hw' : Call.write q c = s at h
      have below : ∀ rel, ¬ rel ++ linkInfo w fs sh <:+ p ∧ (Dict.get fs p = none → ¬ p <:+ rel ++ linkInfo w fs sh) := by
        intro rel
        refine ⟨fun e => h1 ((List.suffix_append _ _).trans e), fun hn e => ?_⟩
        rcases List.suffix_or_suffix_of_suffix e (List.suffix_append rel (linkInfo w fs sh)) with e | e
        · exact h4 hn e
        · exact h1 e
      have scr : ∀ x, ((∃ c, (x, c) ∈ entriesAt w fs (t!"dist-info" :: sh)) ∨ ∃ c, Dict.get fs (x :: t!"bin" :: sh) = some (.file c)) →
          ¬ (x :: w.scripts) <:+ p ∧ (Dict.get fs p = none → ¬ p <:+ (x :: w.scripts)) := by
        intro x hx
        refine ⟨h3 x hx, fun hn e => ?_⟩
        rcases List.suffix_cons_iff.1 e with e | e
        · exact h3 x hx (e ▸ List.suffix_refl _)
        · exact h6 hn e
      cases h with
      | pth => cases hw'; exact ⟨h2, h5⟩
      | entry e he => cases hw'; exact scr _ (.inl ⟨_, he⟩)
      | script n d hd => cases hw'; exact scr _ (.inr ⟨_, hd⟩)
      | marker => cases hw'; exact below [t!"SHARED"]
      | mkdir rel => cases hw'
      | copy _ _ _ _ _ => cases hw'
      | touch _ _ _ => cases hw'
      | fail => cases hw'
    have below : ∀ rel, ¬ rel ++ linkInfo w fs sh <:+ p ∧ (Dict.get fs p = none → ¬ p <:+ rel ++ linkInfo w fs sh) := by
      intro rel
      refine ⟨fun e => h1 ((List.suffix_append _ _).trans e), fun hn e => ?_⟩
      rcases List.suffix_or_suffix_of_suffix e (List.suffix_append rel (linkInfo w fs sh)) with e | e
      · exact h4 hn e
      · exact h1 e
    have h := hkind s hs
    cases s with
    | write q' c => simp only [target, Option.some.injEq] at hq; subst hq; exact hW _ c h
    | touch q' r =>
      simp only [target, Option.some.injEq] at hq; subst hq
      cases h with
      | touch _ c h' => exact hW _ c h'
    | mkdir q' =>
      simp only [target, Option.some.injEq] at hq; subst hq
      cases h with
      | mkdir rel => exact below rel
    | copy src q' =>
      simp only [target, Option.some.injEq] at hq; subst hq
      cases h with
      | copy rel c _ _ _ => exact below rel
    | rm q' => cases h
    | fail => simp [target] at hq
  · refine ⟨recordsAt w t.fs (linkInfo w fs sh) ++ signFiles [] w.hash t.fs (sitePath w fs sh) t.copied, ?_, ?_⟩
    · rw [Dict.get_put, if_pos rfl]
    · intro p c hp hc hold hv
      have hf := hrec p hp
      rw [hf] at hc
      have hpm : p ∈ t.copied := by
        rcases foldl_changed w.empty p c _ _ (by
          rintro s hs q rfl
          have := hkind _ hs
          cases this) hc with e | e | e
        · exact absurd e hold
        · exact hmarks.2.2 p false ((linkCalls_mem w fs hg.wf sh p c).1 (hkind _ e)).2
        · exact hmarks.2.1 _ p e
      rw [← hfs] at hc
      have hpne : p ≠ [] := by
        rintro rfl
        rw [hgt.root] at hc; cases hc
      obtain ⟨t1, ht1, ht2⟩ := path_to_leads_partial (sitePath w fs sh) p hpne hv ((sitePath w fs sh).length + 1) (by omega)
      refine ⟨⟨t1, some (w.hash c)⟩, ?_, ht2, rfl⟩
      rw [List.mem_append]
      right
      rw [mem_signFiles]
      exact ⟨p, hpm, c, t1, hc, ht1, by simp [Dict.get]⟩

end SharedPkg
end Pkm
