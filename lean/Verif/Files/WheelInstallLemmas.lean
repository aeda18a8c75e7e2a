import Verif.Files.WheelInstall
set_option linter.unusedVariables false
set_option linter.unusedSimpArgs false
set_option linter.unusedSectionVars false
/-
C96: what a wheel puts where, and lemmas about the steps of an installation.
-/
namespace Pkm
open Tags Files Files.FS WheelInstall

variable {C S : Type}

namespace Spec

/-- The file at a relative path (the name first, then the directories, inside out) of an extracted wheel. -/
inductive FileIn : Sources C → Path → C → Prop where
  | file {n c rest} : FileIn (.cons n (.file c) rest) [n] c
  | dir {n es rest r c} : FileIn es r c → FileIn (.cons n (.dir es) rest) (r ++ [n]) c
  | later {n s rest r c} : FileIn rest r c → FileIn (.cons n s rest) r c

/-- The directory at a relative path of an extracted wheel. -/
inductive DirIn : Sources C → Path → Prop where
  | here {n es rest} : DirIn (.cons n (.dir es) rest) [n]
  | dir {n es rest r} : DirIn es r → DirIn (.cons n (.dir es) rest) (r ++ [n])
  | later {n s rest r} : DirIn rest r → DirIn (.cons n s rest) r

/-- Where the kinds of data of a wheel belong. -/
def KindPlace (tg : Target) (kind : Text) (place : Path) : Prop :=
  (kind, place) ∈ [(t!"stdlib", tg.stdlib), (t!"platstdlib", tg.platstdlib), (t!"platinclude", tg.platinclude),
    (t!"purelib", tg.purelib), (t!"platlib", tg.platlib), (t!"include", tg.incl), (t!"data", tg.data),
    (t!"scripts", tg.scripts)]

/-- A wheel puts a file to a place. `stem` is the name of the dist-info directory without `.dist-info`. -/
inductive Puts (tg : Target) (patch : C → C) (site : Path) (stem : Text) (tree : Sources C) : Path → C → Prop where
  /-- what is not in the data directory goes to the site, apart from RECORD -/
  | plain {r c} : FileIn tree r c → r.getLast? ≠ some (stem ++ t!".data") ∨ r.length = 1 →
      ¬ ["RECORD".toList, stem ++ distInfoExt] <:+ r → Puts tg patch site stem tree (r ++ site) c
  /-- data goes to the place of its kind -/
  | data {r kind place c} : FileIn tree (r ++ [kind, stem ++ t!".data"]) c → r ≠ [] → KindPlace tg kind place →
      kind ≠ t!"scripts" ∨ r.length ≠ 1 → Puts tg patch site stem tree (r ++ place) c
  /-- scripts are patched -/
  | script {n c} : FileIn tree [n, t!"scripts", stem ++ t!".data"] c → Puts tg patch site stem tree (n :: tg.scripts) (patch c)

/-- A wheel makes a directory. -/
inductive Makes (tg : Target) (site : Path) (stem : Text) (tree : Sources C) : Path → Prop where
  | plain {r} : DirIn tree r → r.getLast? ≠ some (stem ++ t!".data") → Makes tg site stem tree (r ++ site)
  | data {r kind place} : DirIn tree (r ++ [kind, stem ++ t!".data"]) → KindPlace tg kind place →
      Makes tg site stem tree (r ++ place)

end Spec
open Spec

namespace WheelInstall

/-! ### the tree -/

theorem fileAt_iff (accept : Path → Bool) {es : Sources C} {r : Path} {c : C} (sp : Path) :
    FileAt accept sp es r c ↔ FileIn es r c ∧ ∀ q, q ≠ [] → q <:+ r → accept (q ++ sp) = true := by
  constructor
  · intro h
    induction h with
    | @file sp name c rest ha =>
      refine ⟨.file, ?_⟩
      intro q hq hs
      rcases List.suffix_cons_iff.mp hs with e | e
      · subst e; exact ha
      · exact absurd (List.suffix_nil.mp e) hq
    | @dir sp name es rest r c ha h ih =>
      refine ⟨.dir ih.1, ?_⟩
      intro q hq hs
      rcases q.eq_nil_or_concat with e | ⟨q', n, e⟩
      · exact absurd e hq
      · obtain ⟨u, hu⟩ := hs
        have e2 : u ++ q' ++ [n] = r ++ [name] := by rw [← hu, e]; simp
        have e3 := List.append_inj' e2 rfl
        simp at e3
        obtain ⟨e3, e4⟩ := e3
        subst e4
        by_cases hq' : q' = []
        · subst hq'; rw [e]; simpa using ha
        · have := ih.2 q' hq' ⟨u, e3⟩
          rw [e]; simpa using this
    | later h ih => exact ⟨.later ih.1, ih.2⟩
  · rintro ⟨h, ha⟩
    induction h generalizing sp with
    | @file n c rest => exact .file (by simpa using ha [n] (by simp) (List.suffix_refl _))
    | @dir n es rest r c h ih =>
      refine .dir (by simpa using ha [n] (by simp) (by exact List.suffix_append r [n])) ?_
      apply ih
      intro q hq hs
      have := ha (q ++ [n]) (by simp) (by obtain ⟨u, hu⟩ := hs; exact ⟨u, by rw [← hu]; simp⟩)
      simpa using this
    | later h ih => exact .later (ih sp ha)

theorem FileIn.ne_nil {es : Sources C} {r : Path} {c : C} (h : FileIn es r c) : r ≠ [] := by
  induction h with
  | file => simp
  | dir _ _ => simp
  | later _ ih => exact ih

theorem DirIn.ne_nil {es : Sources C} {r : Path} (h : DirIn es r) : r ≠ [] := by
  induction h with
  | here => simp
  | dir _ _ => simp
  | later _ ih => exact ih

/-- The steps of `copy_tree`. -/
theorem copyEntries_mem (accept : Path → Bool) : ∀ (es : Sources C) (fc : Option (C → C)) (sp tg : Path) (x : Call C),
    x ∈ copyEntries accept fc sp tg es →
    (∃ r c, FileAt accept sp es r c ∧ (x = .copy (.file c) (r ++ tg) ∧ (fc = none ∨ r.length ≠ 1) ∨
      ∃ f, fc = some f ∧ r.length = 1 ∧ (x = .write (r ++ tg) (f c) ∨ x = .touch (r ++ tg) false))) ∨
    (∃ r, DirIn es r ∧ x = .mkdir (r ++ tg))
  | .nil, fc, sp, tg, x, h => by simp [copyEntries] at h
  | .cons name (.dir es) rest, fc, sp, tg, x, h => by
    rw [copyEntries] at h
    rcases List.mem_append.1 h with h | h
    · split at h
      · rename_i ha
        rcases List.mem_cons.1 h with rfl | h
        · exact .inr ⟨[name], .here, rfl⟩
        · rcases copyEntries_mem accept es none _ _ x h with ⟨r, c, h1, h2⟩ | ⟨r, h1, rfl⟩
          · refine .inl ⟨r ++ [name], c, .dir ha h1, .inl ⟨?_, .inr ?_⟩⟩
            · rcases h2 with ⟨h2, _⟩ | ⟨f, h2, _⟩
              · rw [h2]; simp
              · cases h2
            · have := FileIn.ne_nil ((fileAt_iff accept _).1 h1).1
              cases r with
              | nil => exact absurd rfl this
              | cons a b => simp
          · exact .inr ⟨r ++ [name], .dir h1, by simp⟩
      · simp at h
    · rcases copyEntries_mem accept rest fc sp tg x h with ⟨r, c, h1, h2⟩ | ⟨r, h1, h2⟩
      · exact .inl ⟨r, c, .later h1, h2⟩
      · exact .inr ⟨r, .later h1, h2⟩
  | .cons name (.file d) rest, fc, sp, tg, x, h => by
    rw [copyEntries.eq_def] at h
    simp only at h
    rcases List.mem_append.1 h with h | h
    · split at h
      · rename_i ha
        left
        refine ⟨[name], d, .file ha, ?_⟩
        cases fc with
        | none => simp at h; exact .inl ⟨h, .inl rfl⟩
        | some f => simp at h; exact .inr ⟨f, rfl, rfl, h⟩
      · simp at h
    · rcases copyEntries_mem accept rest fc sp tg x h with ⟨r, c, h1, h2⟩ | ⟨r, h1, h2⟩
      · exact .inl ⟨r, c, .later h1, h2⟩
      · exact .inr ⟨r, .later h1, h2⟩

theorem copyEntries_has (accept : Path → Bool) {sp : Path} {es : Sources C} {r : Path} {c : C}
    (h : FileAt accept sp es r c) : ∀ (fc : Option (C → C)) (tg : Path),
    ((fc = none ∨ r.length ≠ 1) → Call.copy (.file c) (r ++ tg) ∈ copyEntries accept fc sp tg es) ∧
    (∀ f, fc = some f → r.length = 1 → Call.write (r ++ tg) (f c) ∈ copyEntries accept fc sp tg es ∧
      Call.touch (r ++ tg) false ∈ copyEntries accept fc sp tg es) := by
  induction h with
  | @file sp name c rest ha =>
    intro fc tg
    rw [copyEntries.eq_def]
    cases fc with
    | none => simp [ha]
    | some f => simp [ha]
  | @dir sp name es rest r c ha h ih =>
    intro fc tg
    rw [copyEntries]
    have hr := FileIn.ne_nil ((fileAt_iff accept _).1 h).1
    have h1 := (ih none (name :: tg)).1 (.inl rfl)
    refine ⟨fun _ => ?_, ?_⟩
    · simp only [ha, if_true, List.append_assoc, List.cons_append, List.nil_append]
      exact List.mem_append_left _ (List.mem_cons_of_mem _ h1)
    · intro f _ hl
      cases r with
      | nil => exact absurd rfl hr
      | cons a b => simp at hl
  | @later sp name s rest r c _ ih =>
    intro fc tg
    obtain ⟨h1, h2⟩ := ih fc tg
    cases s with
    | file d =>
      rw [copyEntries.eq_def]
      simp only
      exact ⟨fun h => List.mem_append_right _ (h1 h), fun f e hl => ⟨List.mem_append_right _ (h2 f e hl).1,
        List.mem_append_right _ (h2 f e hl).2⟩⟩
    | dir d =>
      rw [copyEntries]
      exact ⟨fun h => List.mem_append_right _ (h1 h), fun f e hl => ⟨List.mem_append_right _ (h2 f e hl).1,
        List.mem_append_right _ (h2 f e hl).2⟩⟩

/-! ### the places of data -/

theorem schemeOf_iff (tg : Target) (k : Text) (p : Path) : schemeOf tg k = some p ↔ KindPlace tg k p := by
  unfold schemeOf KindPlace
  constructor
  · intro h
    repeat' split at h
    all_goals first
      | (rename_i e; subst e; simp at h; subst h; simp)
      | (simp at h)
  · intro h
    simp only [List.mem_cons, Prod.mk.injEq, List.not_mem_nil, or_false] at h
    rcases h with ⟨rfl, rfl⟩ | ⟨rfl, rfl⟩ | ⟨rfl, rfl⟩ | ⟨rfl, rfl⟩ | ⟨rfl, rfl⟩ | ⟨rfl, rfl⟩ | ⟨rfl, rfl⟩ | ⟨rfl, rfl⟩ <;> rfl

theorem dataName_stem (stem : Text) : dataName (stem ++ distInfoExt) = stem ++ t!".data" := by
  unfold dataName
  have : (stem ++ distInfoExt).length - distInfoExt.length = stem.length := by simp
  rw [this, List.take_left]

/-- A step that puts a file. -/
def PutCall (x : Call C) (p : Path) (c : C) : Prop := x = .copy (.file c) p ∨ x = .write p c

/-- The steps for the data of a wheel: `es` is the data directory. -/
theorem dataCalls_mem (tg : Target) (patch : C → C) (dir : Path) : ∀ (es : Sources C) (x : Call C),
    x ∈ dataCalls tg patch dir es → x = .fail ∨
    (∃ r k q c, FileIn es (r ++ [k]) c ∧ r ≠ [] ∧ KindPlace tg k q ∧
      (x = .copy (.file c) (r ++ q) ∧ (k ≠ t!"scripts" ∨ r.length ≠ 1) ∨
       k = t!"scripts" ∧ r.length = 1 ∧ (x = .write (r ++ q) (patch c) ∨ x = .touch (r ++ q) false))) ∨
    (∃ r k q, (DirIn es (r ++ [k]) ∨ r = [] ∧ .fail ∈ dataCalls tg patch dir es) ∧ KindPlace tg k q ∧ x = .mkdir (r ++ q))
  | .nil, x, h => by simp [dataCalls] at h
  | .cons k s rest, x, h => by
    rw [dataCalls] at h
    cases hk : schemeOf tg k with
    | none => rw [hk] at h; simp at h; exact .inl h
    | some q =>
      have hkp := (schemeOf_iff tg k q).1 hk
      rw [hk] at h
      cases s with
      | file d =>
        simp at h
        rcases h with rfl | rfl
        · exact .inr (.inr ⟨[], k, q, .inr ⟨rfl, by rw [dataCalls, hk]; simp⟩, hkp, rfl⟩)
        · exact .inl rfl
      | dir es =>
        simp only at h
        rcases List.mem_append.1 h with h | h
        · unfold copyTree at h
          rcases List.mem_cons.1 h with rfl | h
          · exact .inr (.inr ⟨[], k, q, .inl .here, hkp, rfl⟩)
          · rcases copyEntries_mem _ es _ _ _ x h with ⟨r, c, h1, h2⟩ | ⟨r, h1, rfl⟩
            · have hf := ((fileAt_iff _ _).1 h1).1
              refine .inr (.inl ⟨r, k, q, c, .dir hf, FileIn.ne_nil hf, hkp, ?_⟩)
              rcases h2 with ⟨h2, h3⟩ | ⟨f, hfc, hl, h2⟩
              · refine .inl ⟨h2, ?_⟩
                rcases h3 with h3 | h3
                · left
                  intro e
                  rw [if_pos e] at h3; cases h3
                · exact .inr h3
              · by_cases e : k = t!"scripts"
                · rw [if_pos e] at hfc
                  cases hfc
                  exact .inr ⟨e, hl, h2⟩
                · rw [if_neg e] at hfc; cases hfc
            · exact .inr (.inr ⟨r, k, q, .inl (.dir h1), hkp, rfl⟩)
        · rcases dataCalls_mem tg patch dir rest x h with h | ⟨r, k', q', c, h1, h2, h3, h4⟩ | ⟨r, k', q', h1, h2, h3⟩
          · exact .inl h
          · exact .inr (.inl ⟨r, k', q', c, .later h1, h2, h3, h4⟩)
          · refine .inr (.inr ⟨r, k', q', ?_, h2, h3⟩)
            rcases h1 with h1 | ⟨h1, h1'⟩
            · exact .inl (.later h1)
            · exact .inr ⟨h1, by rw [dataCalls, hk]; exact List.mem_append_right _ h1'⟩

theorem append_singleton_inj {a b : Path} {x y : Text} (h : a ++ [x] = b ++ [y]) : a = b ∧ x = y := by
  have := List.append_inj' h rfl
  simpa using this

theorem dataCalls_has (tg : Target) (patch : C → C) (dir : Path) : ∀ (es : Sources C), Call.fail ∉ dataCalls tg patch dir es →
    ∀ r k q c, FileIn es (r ++ [k]) c → r ≠ [] → KindPlace tg k q →
      ((k ≠ t!"scripts" ∨ r.length ≠ 1) → Call.copy (.file c) (r ++ q) ∈ dataCalls tg patch dir es) ∧
      (k = t!"scripts" → r.length = 1 → Call.write (r ++ q) (patch c) ∈ dataCalls tg patch dir es ∧
        Call.touch (r ++ q) false ∈ dataCalls tg patch dir es)
  | .nil, _, r, k, q, c, h, _, _ => by generalize hr : r ++ [k] = r' at h; cases h
  | .cons n s rest, hf, r, k, q, c, h, hr, hk => by
    rw [dataCalls] at hf ⊢
    cases hn : schemeOf tg n with
    | none => rw [hn] at hf; simp at hf
    | some p =>
      rw [hn] at hf
      simp only at hf ⊢
      cases s with
      | file d => simp at hf
      | dir es =>
        simp only at hf ⊢
        generalize hrk : r ++ [k] = r' at h
        cases h with
        | @dir _ _ _ r2 _ h =>
          obtain ⟨rfl, rfl⟩ := append_singleton_inj hrk
          have hq : p = q := by
            have := (schemeOf_iff tg k q).2 hk
            rw [hn] at this; simpa using this
          subst hq
          have ha : FileAt (fun _ => true) (k :: dir) es r c := (fileAt_iff _ _).2 ⟨h, by simp⟩
          constructor
          · intro hc
            apply List.mem_append_left
            unfold copyTree
            refine List.mem_cons_of_mem _ ((copyEntries_has _ ha _ p).1 ?_)
            rcases hc with hc | hc
            · left; rw [if_neg hc]
            · exact .inr hc
          · intro hs hl
            have := (copyEntries_has _ ha (if k = t!"scripts" then some patch else none) p).2 patch (by rw [if_pos hs]) hl
            exact ⟨List.mem_append_left _ (List.mem_cons_of_mem _ this.1), List.mem_append_left _ (List.mem_cons_of_mem _ this.2)⟩
        | later h =>
          rw [← hrk] at h
          have := dataCalls_has tg patch dir rest (fun hm => hf (List.mem_append_right _ hm)) r k q c h hr hk
          exact ⟨fun hc => List.mem_append_right _ (this.1 hc), fun a b => ⟨List.mem_append_right _ (this.2 a b).1,
            List.mem_append_right _ (this.2 a b).2⟩⟩

/-! ### the whole content -/

theorem Puts.later {tg : Target} {patch : C → C} {site : Path} {stem n : Text} {s : Source C} {rest : Sources C} {p : Path} {c : C}
    (h : Puts tg patch site stem rest p c) : Puts tg patch site stem (.cons n s rest) p c := by
  cases h with
  | plain a b c => exact .plain (.later a) b c
  | data a b c d => exact .data (.later a) b c d
  | script a => exact .script (.later a)

theorem Makes.later {tg : Target} {site : Path} {stem n : Text} {s : Source C} {rest : Sources C} {p : Path}
    (h : Makes tg site stem rest p) : Makes tg site stem (.cons n s rest) p := by
  cases h with
  | plain a b => exact .plain (.later a) b
  | data a b => exact .data (.later a) b

/-- What a step of the content is. -/
inductive ContentCall (tg : Target) (patch : C → C) (site : Path) (stem : Text) (tree : Sources C) : Call C → Prop where
  | put {x p c} : PutCall x p c → Puts tg patch site stem tree p c → ContentCall tg patch site stem tree x
  | touch {p c} : Puts tg patch site stem tree p c → ContentCall tg patch site stem tree (.touch p false)
  | mkdir {p} : Makes tg site stem tree p → ContentCall tg patch site stem tree (.mkdir p)

theorem ContentCall.later {tg : Target} {patch : C → C} {site : Path} {stem n : Text} {s : Source C} {rest : Sources C} {x : Call C}
    (h : ContentCall tg patch site stem rest x) : ContentCall tg patch site stem (.cons n s rest) x := by
  cases h with
  | put a b => exact .put a (Puts.later b)
  | touch a => exact .touch (Puts.later a)
  | mkdir a => exact .mkdir (Makes.later a)

theorem record_suffix {r : Path} {n d : Text} (content : Path) :
    (∀ q, q ≠ [] → q <:+ r → q ++ n :: content ≠ "RECORD".toList :: d :: content) ↔ ¬ ["RECORD".toList, d] <:+ r ++ [n] := by
  constructor
  · rintro h ⟨u, hu⟩
    have e : (u ++ ["RECORD".toList]) ++ [d] = r ++ [n] := by rw [← hu]; simp
    obtain ⟨e1, e2⟩ := append_singleton_inj e
    exact h ["RECORD".toList] (by simp) ⟨u, e1⟩ (by rw [e2]; rfl)
  · rintro h q hq ⟨u, hu⟩ e
    apply h
    have e2 : (q ++ [n]) ++ content = ["RECORD".toList, d] ++ content := by simpa using e
    have e3 := List.append_cancel_right e2
    exact ⟨u, by rw [← e3, ← hu]; simp⟩

theorem contentCalls_mem (tg : Target) (patch : C → C) (content site : Path) (stem : Text) : ∀ (tree : Sources C),
    Call.fail ∉ contentCalls tg patch content site (stem ++ distInfoExt) tree →
    ∀ x ∈ contentCalls tg patch content site (stem ++ distInfoExt) tree, ContentCall tg patch site stem tree x
  | .nil, _, x, h => by simp [contentCalls] at h
  | .cons n (.file c) rest, hf, x, h => by
    rw [contentCalls] at h hf
    rcases List.mem_cons.1 h with rfl | h
    · refine .put (.inl rfl) (Puts.plain (r := [n]) .file (.inr rfl) ?_)
      intro hs; have := hs.length_le; simp at this
    · exact ContentCall.later (contentCalls_mem tg patch content site stem rest (fun hm => hf (List.mem_cons_of_mem _ hm)) x h)
  | .cons n (.dir es) rest, hf, x, h => by
    rw [contentCalls] at h hf
    rcases List.mem_append.1 h with h | h
    · have hf1 := fun hm => hf (List.mem_append_left _ hm)
      rw [dataName_stem] at h hf1
      by_cases hn : n = stem ++ t!".data"
      · rw [if_pos hn] at h hf1
        rcases dataCalls_mem tg patch _ es x h with rfl | ⟨r, k, q, c, h1, h2, h3, h4⟩ | ⟨r, k, q, h1, h2, rfl⟩
        · exact absurd h hf1
        · have hfi : FileIn (.cons n (.dir es) rest) (r ++ [k, stem ++ t!".data"]) c := by
            have := FileIn.dir (n := n) (rest := rest) h1
            rw [hn] at this ⊢; simpa using this
          rcases h4 with ⟨rfl, h4⟩ | ⟨rfl, hl, h4⟩
          · exact .put (.inl rfl) (.data hfi h2 h3 h4)
          · have hq : q = tg.scripts := by
              have := (schemeOf_iff tg _ q).2 h3
              have e : schemeOf tg t!"scripts" = some tg.scripts := rfl
              rw [e] at this; simpa using this.symm
            subst hq
            match r, hl with
            | [m], _ =>
              have hp : Puts tg patch site stem (.cons n (.dir es) rest) (m :: tg.scripts) (patch c) := .script hfi
              rcases h4 with rfl | rfl
              · exact .put (.inr rfl) hp
              · exact .touch hp
        · refine .mkdir (.data (kind := k) ?_ h2)
          rcases h1 with h1 | ⟨_, h1⟩
          · have := DirIn.dir (n := n) (rest := rest) h1
            rw [hn] at this ⊢; simpa using this
          · exact absurd h1 hf1
      · rw [if_neg hn] at h
        unfold copyTree at h
        rcases List.mem_cons.1 h with rfl | h
        · exact .mkdir (Makes.plain (r := [n]) .here (by simpa using hn))
        · rcases copyEntries_mem _ es _ _ _ x h with ⟨r, c, h1, h2⟩ | ⟨r, h1, rfl⟩
          · rcases h2 with ⟨rfl, _⟩ | ⟨f, h2, _⟩
            · obtain ⟨h3, h4⟩ := (fileAt_iff _ _).1 h1
              have h5 := (record_suffix (n := n) (d := stem ++ distInfoExt) content).1 (fun q hq hs => by simpa using h4 q hq hs)
              have := Puts.plain (tg := tg) (patch := patch) (site := site) (stem := stem)
                (FileIn.dir (n := n) (rest := rest) h3) (.inl (by simpa using hn)) h5
              exact .put (.inl rfl) (by simpa using this)
            · cases h2
          · have := Makes.plain (tg := tg) (site := site) (stem := stem) (DirIn.dir (n := n) (rest := rest) h1) (by simpa using hn)
            exact .mkdir (by simpa using this)
    · exact ContentCall.later (contentCalls_mem tg patch content site stem rest (fun hm => hf (List.mem_append_right _ hm)) x h)

theorem fileIn_cons {n : Text} {s : Source C} {rest : Sources C} {r : Path} {c : C} (h : FileIn (.cons n s rest) r c) :
    (s = .file c ∧ r = [n]) ∨ (∃ es r', s = .dir es ∧ r = r' ++ [n] ∧ FileIn es r' c) ∨ FileIn rest r c := by
  cases h with
  | file => exact .inl ⟨rfl, rfl⟩
  | dir h => exact .inr (.inl ⟨_, _, rfl, rfl, h⟩)
  | later h => exact .inr (.inr h)

theorem contentCalls_has (tg : Target) (patch : C → C) (content site : Path) (stem : Text) : ∀ (tree : Sources C),
    Call.fail ∉ contentCalls tg patch content site (stem ++ distInfoExt) tree →
    ∀ p c, Puts tg patch site stem tree p c →
      (∃ x ∈ contentCalls tg patch content site (stem ++ distInfoExt) tree, PutCall x p c) ∧
      (Call.copy (.file c) p ∈ contentCalls tg patch content site (stem ++ distInfoExt) tree ∨
        Call.touch p false ∈ contentCalls tg patch content site (stem ++ distInfoExt) tree)
  | .nil, _, p, c, h => by
    cases h with
    | plain a => cases a
    | data a => generalize ([_] : Path) ++ _ = r at a; revert a; generalize (_ : Path) ++ _ = r; intro a; cases a
    | script a => cases a
  | .cons n s rest, hf, p, c, h => by
    -- what was put by the rest of the tree
    have hrest : Call.fail ∉ contentCalls tg patch content site (stem ++ distInfoExt) rest := by
      intro hm
      apply hf
      cases s with
      | file d => rw [contentCalls]; exact List.mem_cons_of_mem _ hm
      | dir es => rw [contentCalls]; exact List.mem_append_right _ hm
    have hsub : ∀ x ∈ contentCalls tg patch content site (stem ++ distInfoExt) rest,
        x ∈ contentCalls tg patch content site (stem ++ distInfoExt) (.cons n s rest) := by
      intro x hm
      cases s with
      | file d => rw [contentCalls]; exact List.mem_cons_of_mem _ hm
      | dir es => rw [contentCalls]; exact List.mem_append_right _ hm
    have hlater : Puts tg patch site stem rest p c →
        (∃ x ∈ contentCalls tg patch content site (stem ++ distInfoExt) (.cons n s rest), PutCall x p c) ∧
        (Call.copy (.file c) p ∈ contentCalls tg patch content site (stem ++ distInfoExt) (.cons n s rest) ∨
          Call.touch p false ∈ contentCalls tg patch content site (stem ++ distInfoExt) (.cons n s rest)) := by
      intro h
      obtain ⟨⟨x, h1, h2⟩, h3⟩ := contentCalls_has tg patch content site stem rest hrest p c h
      exact ⟨⟨x, hsub x h1, h2⟩, h3.imp (hsub _) (hsub _)⟩
    cases h with
    | @plain r c a b d =>
      rcases fileIn_cons a with ⟨rfl, rfl⟩ | ⟨es, r', rfl, rfl, h⟩ | h
      · have : Call.copy (.file c) (n :: site) ∈ contentCalls tg patch content site (stem ++ distInfoExt) (.cons n (.file c) rest) := by
          rw [contentCalls]; simp
        exact ⟨⟨_, this, .inl rfl⟩, .inl this⟩
      · have hn : n ≠ stem ++ t!".data" := by
          rcases b with b | b
          · simpa using b
          · have := FileIn.ne_nil h
            cases r' with
            | nil => exact absurd rfl this
            | cons x y => simp at b
        have ha : FileAt (fun p => decide (p ≠ "RECORD".toList :: (stem ++ distInfoExt) :: content)) (n :: content) es r' c :=
          (fileAt_iff _ _).2 ⟨h, fun q hq hs => by
            have := (record_suffix (n := n) (d := stem ++ distInfoExt) content).2 d q hq hs
            simpa using this⟩
        have : Call.copy (.file c) (r' ++ n :: site) ∈ contentCalls tg patch content site (stem ++ distInfoExt) (.cons n (.dir es) rest) := by
          rw [contentCalls, dataName_stem, if_neg hn]
          exact List.mem_append_left _ (List.mem_cons_of_mem _ ((copyEntries_has _ ha none (n :: site)).1 (.inl rfl)))
        simp only [List.append_assoc, List.cons_append, List.nil_append]
        exact ⟨⟨_, this, .inl rfl⟩, .inl this⟩
      · exact hlater (.plain h b d)
    | @data r kind place c a b d e =>
      rcases fileIn_cons a with ⟨_, h⟩ | ⟨es, r', rfl, h', h⟩ | h
      · have := congrArg List.length h; simp at this
      · have h2 : (r ++ [kind]) ++ [stem ++ t!".data"] = r' ++ [n] := by simpa using h'
        obtain ⟨rfl, rfl⟩ := append_singleton_inj h2
        have hf1 : Call.fail ∉ dataCalls tg patch ((stem ++ t!".data") :: content) es := by
          intro hm; apply hf; rw [contentCalls, dataName_stem, if_pos rfl]; exact List.mem_append_left _ hm
        have := (dataCalls_has tg patch _ es hf1 r kind place c h b d).1 e
        have : Call.copy (.file c) (r ++ place) ∈ contentCalls tg patch content site (stem ++ distInfoExt) (.cons (stem ++ t!".data") (.dir es) rest) := by
          rw [contentCalls, dataName_stem, if_pos rfl]; exact List.mem_append_left _ this
        exact ⟨⟨_, this, .inl rfl⟩, .inl this⟩
      · exact hlater (.data h b d e)
    | @script m c a =>
      rcases fileIn_cons a with ⟨_, h⟩ | ⟨es, r', rfl, h', h⟩ | h
      · have := congrArg List.length h; simp at this
      · have h2 : [m, t!"scripts"] ++ [stem ++ t!".data"] = r' ++ [n] := by simpa using h'
        obtain ⟨rfl, rfl⟩ := append_singleton_inj h2
        have hf1 : Call.fail ∉ dataCalls tg patch ((stem ++ t!".data") :: content) es := by
          intro hm; apply hf; rw [contentCalls, dataName_stem, if_pos rfl]; exact List.mem_append_left _ hm
        have hk : KindPlace tg t!"scripts" tg.scripts := by simp [KindPlace]
        have := (dataCalls_has tg patch _ es hf1 [m] t!"scripts" tg.scripts c h (by simp) hk).2 rfl rfl
        have e1 : Call.write (m :: tg.scripts) (patch c) ∈ contentCalls tg patch content site (stem ++ distInfoExt) (.cons (stem ++ t!".data") (.dir es) rest) := by
          rw [contentCalls, dataName_stem, if_pos rfl]; exact List.mem_append_left _ this.1
        have e2 : Call.touch (m :: tg.scripts) false ∈ contentCalls tg patch content site (stem ++ distInfoExt) (.cons (stem ++ t!".data") (.dir es) rest) := by
          rw [contentCalls, dataName_stem, if_pos rfl]; exact List.mem_append_left _ this.2
        exact ⟨⟨_, e1, .inr rfl⟩, .inr e2⟩
      · exact hlater (.script h)

/-! ### the effect of the content -/

theorem run_no_fail (empty : C) : ∀ (body : List (Call C)) (t t' : Txn C), Txn.run empty body t = .ok t' → Call.fail ∉ body
  | [], _, _, _ => by simp
  | x :: xs, t, t', h => by
    unfold Txn.run at h
    cases hs : t.step empty x with
    | raised t1 => rw [hs] at h; cases h
    | ok t1 =>
      rw [hs] at h
      simp only [List.mem_cons, not_or]
      refine ⟨?_, run_no_fail empty xs t1 t' h⟩
      rintro rfl
      cases hs

/-- The steps of which a content consists. -/
def Simple (x : Call C) : Prop := (∃ p c, PutCall x p c) ∨ (∃ p, x = .touch p false) ∨ ∃ p, x = .mkdir p

theorem ContentCall.simple {tg : Target} {patch : C → C} {site : Path} {stem : Text} {tree : Sources C} {x : Call C}
    (h : ContentCall tg patch site stem tree x) : Simple x := by
  cases h with
  | put a _ => exact .inl ⟨_, _, a⟩
  | touch _ => exact .inr (.inl ⟨_, rfl⟩)
  | mkdir _ => exact .inr (.inr ⟨_, rfl⟩)

theorem foldl_put_file (empty : C) (p : Path) (c : C) : ∀ (body : List (Call C)) (f : Path → Option (Node C)),
    (∀ x ∈ body, Simple x) → (∀ x ∈ body, ∀ q d, PutCall x q d → q <:+ p → q = p ∧ d = c) →
    (f p = some (.file c) ∨ ∃ x ∈ body, PutCall x p c) → body.foldl (after empty) f p = some (.file c)
  | [], f, _, _, h => by
    rcases h with h | ⟨x, hx, _⟩
    · exact h
    · simp at hx
  | x :: xs, f, hs, hp, h => by
    rw [List.foldl_cons]
    apply foldl_put_file empty p c xs _ (fun y hy => hs y (by simp [hy])) (fun y hy => hp y (by simp [hy]))
    have key : f p = some (.file c) → after empty f x p = some (.file c) := by
      clear h
      intro h
      rcases hs x (by simp) with ⟨q, d, e | e⟩ | ⟨q, e⟩ | ⟨q, e⟩
      · have := hp x (by simp) q d (.inl e)
        subst e
        simp only [after]
        split
        · rename_i e; subst e; rw [(this (List.suffix_refl _)).2]
        · split
          · rename_i h1 h2; exact absurd (this h2).1.symm h1
          · rw [if_neg (by simp [h])]; exact h
      · have := hp x (by simp) q d (.inr e)
        subst e
        simp only [after]
        split
        · rename_i e; subst e; rw [(this (List.suffix_refl _)).2]
        · exact h
      · subst e; simp [after, h]
      · subst e; simp [after, h]
    rcases h with h | ⟨y, hy, hc⟩
    · exact .inl (key h)
    · rcases List.mem_cons.1 hy with rfl | hy
      · left
        rcases hc with rfl | rfl <;> simp [after]
      · exact .inr ⟨y, hy, hc⟩

theorem foldl_put_other (empty : C) (p : Path) : ∀ (body : List (Call C)) (f : Path → Option (Node C)),
    (∀ x ∈ body, Simple x) → (∀ x ∈ body, ∀ q d, PutCall x q d → ¬ q <:+ p) →
    body.foldl (after empty) f p = f p ∨
      (f p = none ∧ body.foldl (after empty) f p = some .dir ∧ ∃ x ∈ body, ∃ q, target x = some q ∧ p <:+ q)
  | [], f, _, _ => .inl rfl
  | x :: xs, f, hs, hp => by
    rw [List.foldl_cons]
    have ih := foldl_put_other empty p xs (after empty f x) (fun y hy => hs y (by simp [hy])) (fun y hy => hp y (by simp [hy]))
    have key : after empty f x p = f p ∨ (f p = none ∧ after empty f x p = some .dir ∧ ∃ q, target x = some q ∧ p <:+ q) := by
      rcases hs x (by simp) with ⟨q, d, e | e⟩ | ⟨q, e⟩ | ⟨q, e⟩
      · have h1 := hp x (by simp) q d (.inl e)
        subst e
        have h2 : p ≠ q := by rintro rfl; exact h1 (List.suffix_refl _)
        simp only [after, if_neg h2, if_neg h1]
        split
        · rename_i h; exact .inr ⟨h.1, rfl, q, rfl, h.2⟩
        · exact .inl rfl
      · have h1 := hp x (by simp) q d (.inr e)
        subst e
        have h2 : p ≠ q := by rintro rfl; exact h1 (List.suffix_refl _)
        left
        simp only [after, if_neg h2]
      · subst e; simp [after]
      · subst e
        simp only [after]
        split
        · rename_i h; exact .inr ⟨h.1, rfl, q, rfl, h.2⟩
        · exact .inl rfl
    rcases key with e | ⟨e1, e2, q, e3, e4⟩
    · rw [e] at ih
      rcases ih with h | ⟨h1, h2, y, hy, q, h3, h4⟩
      · exact .inl h
      · exact .inr ⟨h1, h2, y, by simp [hy], q, h3, h4⟩
    · right
      rw [e2] at ih
      rcases ih with h | ⟨h1, _⟩
      · exact ⟨e1, h, x, by simp, q, e3, e4⟩
      · cases h1

/-- A file among the copied paths was put there, or is marked. -/
theorem run_copied_file (empty : C) : ∀ (body : List (Call C)) (t t' : Txn C), Good t.fs → (∀ x ∈ body, Simple x) →
    Txn.run empty body t = .ok t' →
    (∀ p ∈ t.copied, p ∈ t'.copied) ∧
    (∀ p, (∃ c, Call.copy (.file c) p ∈ body) ∨ Call.touch p false ∈ body → p ∈ t'.copied) ∧
    (∀ p c, p ∈ t'.copied → Dict.get t'.fs p = some (.file c) → (∃ d, p ∈ t.copied ∧ Dict.get t.fs p = some (.file d)) ∨
      (∃ x ∈ body, (∃ d, PutCall x p d) ∨ x = .touch p false))
  | [], t, t', hg, _, h => by
    simp only [Txn.run, Out.ok.injEq] at h
    subst h
    exact ⟨fun _ h => h, by simp, fun p c h1 h2 => .inl ⟨c, h1, h2⟩⟩
  | x :: xs, t, t', hg, hs, h => by
    unfold Txn.run at h
    cases hx : t.step empty x with
    | raised t1 => rw [hx] at h; cases h
    | ok t1 =>
      rw [hx] at h
      obtain ⟨hfs, hg1⟩ := step_ok empty t t1 hg x hx
      obtain ⟨i1, i2, i3⟩ := run_copied_file empty xs t1 t' hg1 (fun y hy => hs y (by simp [hy])) h
      -- one step
      have key : (∀ p ∈ t.copied, p ∈ t1.copied) ∧ (∀ p, (∃ c, x = .copy (.file c) p) ∨ x = .touch p false → p ∈ t1.copied) ∧
          (∀ p c, p ∈ t1.copied → Dict.get t1.fs p = some (.file c) → (∃ d, p ∈ t.copied ∧ Dict.get t.fs p = some (.file d)) ∨
            (∃ d, PutCall x p d) ∨ x = .touch p false) := by
        rcases hs x (by simp) with ⟨q, d, e | e⟩ | ⟨q, e⟩ | ⟨q, e⟩
        · subst e
          simp only [Txn.step] at hx
          rcases copy_moves t hg q (.file d) with ⟨t2, c, e, e2, m⟩ | ⟨t2, _, _, e, _⟩
          · rw [e] at hx; simp at hx; subst hx
            simp at e2; subst e2
            refine ⟨fun p hp => (m.copied p).2 (.inl hp), ?_, ?_⟩
            · rintro p (⟨c, e⟩ | e)
              · simp at e; rw [← e.2]; exact (m.copied q).2 (.inr (.inl ⟨rfl, rfl⟩))
              · cases e
            · intro p c hp hc
              by_cases hpq : p = q
              · subst hpq; exact .inr (.inl ⟨d, .inl rfl⟩)
              · rw [hfs] at hc
                simp only [after, if_neg hpq] at hc
                split at hc
                · cases hc
                · split at hc
                  · cases hc
                  · rename_i hn
                    rcases (m.copied p).1 hp with h | h | h
                    · exact .inl ⟨c, h, hc⟩
                    · exact absurd h.1 hpq
                    · rw [h.2.1] at hc; cases hc
          · rw [e] at hx; cases hx
        · subst e
          have hcp : t1.copied = t.copied := by
            simp only [Txn.step, Txn.write] at hx
            split at hx
            · cases hx
            · split at hx
              · simp at hx; rw [← hx]
              · cases hx
          refine ⟨fun p hp => by rw [hcp]; exact hp, by simp, ?_⟩
          intro p c hp hc
          by_cases hpq : p = q
          · subst hpq; exact .inr (.inl ⟨d, .inr rfl⟩)
          · rw [hfs] at hc
            simp only [after, if_neg hpq] at hc
            exact .inl ⟨c, by rw [← hcp]; exact hp, hc⟩
        · subst e
          have hcp : t1.copied = addPath q t.copied ∧ t1.fs = t.fs := by
            simp only [Txn.step, Txn.touch] at hx
            simp at hx; rw [← hx]; exact ⟨rfl, rfl⟩
          refine ⟨fun p hp => by rw [hcp.1, mem_addPath]; exact .inl hp, ?_, ?_⟩
          · rintro p (⟨c, e⟩ | e)
            · cases e
            · simp at e; rw [hcp.1, mem_addPath]; exact .inr e.symm
          · intro p c hp hc
            rw [hcp.1, mem_addPath] at hp
            rcases hp with hp | hp
            · exact .inl ⟨c, hp, by rw [← hcp.2]; exact hc⟩
            · exact .inr (.inr (by rw [hp]))
        · subst e
          simp only [Txn.step] at hx
          rcases mkdir_moves t hg q with ⟨t2, e, m⟩ | e
          · rw [e] at hx; simp at hx; subst hx
            refine ⟨fun p hp => (m.copied p).2 (.inl hp), by simp, ?_⟩
            intro p c hp hc
            have hc2 := hc
            rw [hfs] at hc
            simp only [after] at hc
            split at hc
            · cases hc
            · rename_i hn
              rcases (m.copied p).1 hp with h | h | h
              · exact .inl ⟨c, h, hc⟩
              · obtain ⟨rfl, h⟩ := h
                split at h
                · rename_i hnn; rw [hnn] at hc; cases hc
                · cases h
              · rw [h.2.1] at hc; cases hc
          · rw [e] at hx; cases hx
      obtain ⟨k1, k2, k3⟩ := key
      refine ⟨fun p hp => i1 p (k1 p hp), ?_, ?_⟩
      · rintro p (⟨c, hm⟩ | hm)
        · rcases List.mem_cons.1 hm with e | hm
          · exact i1 p (k2 p (.inl ⟨c, e.symm⟩))
          · exact i2 p (.inl ⟨c, hm⟩)
        · rcases List.mem_cons.1 hm with e | hm
          · exact i1 p (k2 p (.inr e.symm))
          · exact i2 p (.inr hm)
      · intro p c hp hc
        rcases i3 p c hp hc with ⟨d, h1, h2⟩ | ⟨y, hy, h⟩
        · rcases k3 p d h1 h2 with h | h
          · exact .inl h
          · exact .inr ⟨x, by simp, h⟩
        · exact .inr ⟨y, by simp [hy], h⟩

end WheelInstall
end Pkm
