import Verif.Environments.ContainerSites
import Verif.Names.Props
set_option linter.unusedVariables false
set_option linter.unusedSimpArgs false
/-
C84: finding and installing package containers.
-/
namespace Pkm
namespace Spec
open Containers
variable {V : Type}

/-- What the installation in a container has to arrive at: the package of the dependency, in a version it allows. -/
def Resolves (resolve : Dep V → Option (Dict Text (Inner V)) → Option (Dict Text (Inner V))) : Prop :=
  ∀ d old new, resolve d old = some new → ∃ k m, packageNameKey d.name = some k ∧ new.get k = some m ∧ d.allows m.version = true

/-- The packages of a site are filed under the keys of their names. -/
def Filed (site : Site V) : Prop := site.Wf ∧ ∀ k i, site.get k = some i → packageNameKey i.name = some k

end Spec
open Spec
namespace Containers
variable {V : Type}

theorem seps_append (a b : Text) (ha : SepsIsolated a) (hb : SepsIsolated b) : SepsIsolated (a ++ b) := by
  induction a with
  | nil => exact hb
  | cons c cs ih =>
    refine ⟨?_, ih ha.2⟩
    rcases ha.1 with h | ⟨h, d, ds, e, hd⟩
    · exact Or.inl h
    · exact Or.inr ⟨h, d, ds ++ b, by simp [e], hd⟩

theorem suffix_seps : SepsIsolated suffix := by
  simp [suffix, SepsIsolated]; decide

theorem plain_suffix (n : Text) (h : PlainName n) : PlainName (n ++ suffix) := by
  obtain ⟨⟨d, ds, e, hd⟩, hs⟩ := h
  exact ⟨⟨d, ds ++ suffix, by simp [e], hd⟩, seps_append n suffix hs suffix_seps⟩

theorem dash_alnum (c : Char) (h : isAlnum c = true) : (if c = '_' then '-' else c) = c := by
  rw [if_neg]
  intro e; subst e; revert h; decide

theorem plain_dash (s : Text) (h : PlainName s) : PlainName (replaceChar '_' '-' s) := by
  obtain ⟨⟨d, ds, e, hd⟩, hs⟩ := h
  constructor
  · refine ⟨d, replaceChar '_' '-' ds, ?_, hd⟩
    rw [e]
    simp only [replaceChar, List.map_cons, dash_alnum d hd]
  · clear e hd
    induction s with
    | nil => trivial
    | cons c cs ih =>
      refine ⟨?_, ih hs.2⟩
      rcases hs.1 with h | ⟨h, x, xs, e, hx⟩
      · left; show isAlnum (if c = '_' then '-' else c) = true; rw [dash_alnum c h]; exact h
      · right
        refine ⟨?_, x, replaceChar '_' '-' xs, ?_, hx⟩
        · by_cases hc : c = '_'
          · simp [hc]; decide
          · simp [hc, h]
        · rw [e]; simp only [List.map_cons, dash_alnum x hx]; rfl

theorem key_dash (s : Text) : (replaceChar '_' '-' s).map plainKeyChar = s.map plainKeyChar := by
  simp only [replaceChar, List.map_map]
  apply List.map_congr_left
  intro c _
  simp only [Function.comp]
  by_cases h : c = '_'
  · subst h; decide
  · simp [h]

theorem key_suffix (n : Text) : (n ++ suffix).map plainKeyChar = n.map plainKeyChar ++ suffix := by
  rw [List.map_append]
  congr 1

/-- The name of the wrapper of a package. -/
def wname (n : Text) : Text := replaceChar '_' '-' (n ++ suffix)

theorem wrapperName_plain (d : Dep V) (h : PlainName d.name) : wrapperName d = some (wname d.name) := by
  have hp := plain_suffix d.name h
  unfold wrapperName descriptorName normalizeName
  rw [plain_normal _ hp]
  have : (d.name ++ suffix).isEmpty = false := by simp [suffix]
  simp [this, wname]

theorem key_wname (n : Text) (h : PlainName n) : packageNameKey (wname n) = some (n.map plainKeyChar ++ suffix) := by
  rw [wname, plain_key _ (plain_dash _ (plain_suffix n h)), key_dash, key_suffix]

theorem drop_wname (n : Text) : dropSuffix (wname n) = replaceChar '_' '-' n := by
  have e : wname n = replaceChar '_' '-' n ++ replaceChar '_' '-' suffix := by simp [wname, replaceChar]
  rw [dropSuffix, e]
  have hl : (replaceChar '_' '-' n ++ replaceChar '_' '-' suffix).length - suffix.length = (replaceChar '_' '-' n).length := by
    simp [replaceChar]
  rw [hl]
  simp

theorem key_ne (n : Text) : n.map plainKeyChar ≠ n.map plainKeyChar ++ suffix := by
  intro h
  have := congrArg List.length h
  simp [suffix] at this

theorem installNew_some (wv : V) (resolve : Dep V → Option (Dict Text (Inner V)) → Option (Dict Text (Inner V))) (site site' : Site V)
    (d : Dep V) (hn : PlainName d.name) (h : installNew wv resolve site d = some site') :
    ∃ inner, resolve d ((site.get (d.name.map plainKeyChar ++ suffix)).bind (·.box)) = some inner ∧
      site' = site.put (d.name.map plainKeyChar ++ suffix)
        ⟨wname d.name, wv, some (inner.put (d.name.map plainKeyChar ++ suffix) ⟨wname d.name, wv, true⟩)⟩ := by
  unfold installNew at h
  rw [wrapperName_plain d hn] at h
  simp only [key_wname d.name hn] at h
  split at h
  · cases h
  · rename_i inner hr
    exact ⟨inner, hr, by cases h; rfl⟩

theorem main_installed (wv : V) (d : Dep V) (hn : PlainName d.name) (inner : Dict Text (Inner V)) (m : Inner V)
    (hm : inner.get (d.name.map plainKeyChar) = some m) :
    mainOf (wname d.name) (inner.put (d.name.map plainKeyChar ++ suffix) ⟨wname d.name, wv, true⟩) = some m := by
  unfold mainOf
  rw [key_wname d.name hn]
  have hs : suffix.isSuffixOf (d.name.map plainKeyChar ++ suffix) = true := by
    rw [List.isSuffixOf_iff_suffix]; exact List.suffix_append _ _
  simp only [hs, if_true, drop_wname, installed, plain_key _ (plain_dash d.name hn), key_dash, Option.bind_some, Dict.get_put,
    if_neg (key_ne d.name).symm, hm]

theorem installed_plain {α : Type} (site : Dict Text α) (n : Text) (h : PlainName n) :
    installed site n = site.get (n.map plainKeyChar) := by
  simp [installed, plain_key n h]

/-- C84 (what is installed is found): full statement: after an application was installed in a container, its container is found by the
name of the application, has the application in a version that was asked for, and installing it once more does nothing. Proved if the
environment does not have the application itself. -/
theorem install_found_partial (wv : V) (resolve : Dep V → Option (Dict Text (Inner V)) → Option (Dict Text (Inner V)))
    (hr : Resolves resolve) (site site' : Site V) (d : Dep V) (update new : Bool) (hn : PlainName d.name)
    (hno : installed site d.name = none) (h : install wv resolve site d update = some (site', new)) :
    (∃ c box m, containerOf site' d.name = some c ∧ c.box = some box ∧ mainOf c.name box = some m ∧ d.allows m.version = true) ∧
    install wv resolve site' d false = some (site', false) := by
  have key : ∀ s, installNew wv resolve site d = some s → s = site' →
      ∃ c box m, containerOf site' d.name = some c ∧ c.box = some box ∧ mainOf c.name box = some m ∧ d.allows m.version = true := by
    intro s hs e
    subst e
    obtain ⟨inner, hres, e⟩ := installNew_some wv resolve site s d hn hs
    obtain ⟨k, m, hk, hm, ha⟩ := hr d _ inner hres
    rw [plain_key d.name hn] at hk
    cases hk
    refine ⟨⟨wname d.name, wv, some (inner.put (d.name.map plainKeyChar ++ suffix) ⟨wname d.name, wv, true⟩)⟩,
      inner.put (d.name.map plainKeyChar ++ suffix) ⟨wname d.name, wv, true⟩, m, ?_, rfl, main_installed wv d hn inner m hm, ha⟩
    rw [installed_plain site d.name hn] at hno
    unfold containerOf
    rw [installed_plain s d.name hn, e, Dict.get_put, if_neg (key_ne d.name).symm, hno]
    simp only
    rw [installed_plain _ _ (plain_suffix d.name hn), key_suffix, Dict.get_put, if_pos rfl]
    simp
  have key2 : (∃ c box m, containerOf site' d.name = some c ∧ c.box = some box ∧ mainOf c.name box = some m ∧
      d.allows m.version = true) → install wv resolve site' d false = some (site', false) := by
    rintro ⟨c, box, m, h1, h2, h3, h4⟩
    simp [install, h1, h2, h3, h4]
  have hnew : (installNew wv resolve site d).map (·, true) = some (site', new) → ∃ s, installNew wv resolve site d = some s ∧ s = site' := by
    intro h
    cases hi : installNew wv resolve site d with
    | none => rw [hi] at h; cases h
    | some s => rw [hi] at h; simp at h; exact ⟨s, rfl, h.1⟩
  have fin : ∃ c box m, containerOf site' d.name = some c ∧ c.box = some box ∧ mainOf c.name box = some m ∧ d.allows m.version = true := by
    unfold install at h
    split at h
    · obtain ⟨s, h1, h2⟩ := hnew h
      exact key s h1 h2
    · split at h
      · obtain ⟨s, h1, h2⟩ := hnew h
        exact key s h1 h2
      · rename_i c hc
        split at h
        · cases h
        · rename_i m hm
          split at h
          · rename_i ha
            simp at h
            rw [← h.1]
            have hb : ∃ box, c.box = some box := by
              unfold containerOf at hc
              split at hc
              · split at hc
                · rename_i hb
                  cases hc
                  exact Option.isSome_iff_exists.1 hb
                · cases hc
              · split at hc
                · split at hc
                  · rename_i hb
                    cases hc
                    exact Option.isSome_iff_exists.1 hb
                  · cases hc
                · cases hc
            obtain ⟨box, hb⟩ := hb
            rw [hb] at hm
            exact ⟨c, box, m, hc, hb, hm, ha⟩
          · obtain ⟨s, h1, h2⟩ := hnew h
            exact key s h1 h2
  exact ⟨fin, key2 fin⟩

/-- C84 (nothing else changes): installing an application in a container leaves all other packages of the environment, and their
containers, as they are. -/
theorem install_others (wv : V) (resolve : Dep V → Option (Dict Text (Inner V)) → Option (Dict Text (Inner V))) (site site' : Site V)
    (d : Dep V) (update new : Bool) (hn : PlainName d.name) (h : install wv resolve site d update = some (site', new))
    (k : Text) (hk : packageNameKey (d.name ++ suffix) ≠ some k) : site'.get k = site.get k := by
  have hk' : d.name.map plainKeyChar ++ suffix ≠ k := by
    intro e
    apply hk
    rw [plain_key _ (plain_suffix d.name hn), key_suffix, e]
  have hnew : (installNew wv resolve site d).map (·, true) = some (site', new) → site'.get k = site.get k := by
    intro h
    cases hi : installNew wv resolve site d with
    | none => rw [hi] at h; cases h
    | some s =>
      rw [hi] at h
      simp at h
      obtain ⟨inner, _, e⟩ := installNew_some wv resolve site s d hn hi
      rw [← h.1, e, Dict.get_put, if_neg hk']
  unfold install at h
  split at h
  · exact hnew h
  · split at h
    · exact hnew h
    · split at h
      · cases h
      · split at h
        · simp at h; rw [h.1]
        · exact hnew h

/-- C84 (what was there is used): the application is only installed anew if it is asked for, or there is no container with a version
that is asked for. -/
theorem install_new_iff (wv : V) (resolve : Dep V → Option (Dict Text (Inner V)) → Option (Dict Text (Inner V))) (site site' : Site V)
    (d : Dep V) (update new : Bool) (h : install wv resolve site d update = some (site', new)) :
    (new = false ↔ update = false ∧ ∃ c m, containerOf site d.name = some c ∧ mainOf c.name (c.box.getD []) = some m ∧
      d.allows m.version = true) ∧ (new = false → site' = site) := by
  have hnew : (installNew wv resolve site d).map (·, true) = some (site', new) → new = true := by
    intro h
    cases hi : installNew wv resolve site d with
    | none => rw [hi] at h; cases h
    | some s => rw [hi] at h; simp at h; exact h.2
  unfold install at h
  split at h
  · rename_i hu
    have := hnew h
    subst this
    simp [hu]
  · rename_i hu
    have hu' : update = false := by simpa using hu
    split at h
    · rename_i hc
      have := hnew h
      subst this
      simp [hc]
    · rename_i c hc
      split at h
      · cases h
      · rename_i m hm
        split at h
        · rename_i ha
          simp at h
          obtain ⟨h1, h2⟩ := h
          subst h1 h2
          exact ⟨⟨fun _ => ⟨hu', c, m, hc, hm, ha⟩, fun _ => rfl⟩, fun _ => rfl⟩
        · rename_i ha
          have := hnew h
          subst this
          refine ⟨⟨fun e => absurd e (by simp), ?_⟩, fun e => absurd e (by simp)⟩
          rintro ⟨_, c', m', h1, h2, h3⟩
          rw [hc] at h1
          cases h1
          rw [hm] at h2
          cases h2
          exact absurd h3 ha

/-- C84 (listing): the containers that are listed are the packages that are containers, and each is found by its own name. -/
theorem containers_found (site : Site V) (hs : Filed site) (i : Inst V) :
    i ∈ containers site ↔ containerOf site i.name = some i ∧ i.box ≠ none ∧ ∃ k, site.get k = some i := by
  constructor
  · intro h
    obtain ⟨hm, hb⟩ := List.mem_filter.1 h
    obtain ⟨⟨k, i'⟩, hki, rfl⟩ := List.mem_map.1 hm
    have hg := Dict.mem_get site k i' hs.1 hki
    have hk := hs.2 k _ hg
    have hb' : i'.box.isSome = true := hb
    refine ⟨?_, Option.isSome_iff_ne_none.1 hb', k, hg⟩
    unfold containerOf installed
    simp only [hk, Option.bind_some, hg, hb', if_true]
  · rintro ⟨_, hb, k, hk⟩
    exact List.mem_filter.2 ⟨List.mem_map.2 ⟨_, Dict.get_mem site k i hk, rfl⟩, Option.isSome_iff_ne_none.2 hb⟩

/-- C84 (plugins): the plugins of a container are what was asked for in it, without the application and its wrapper. -/
theorem plugins_are (wv : V) (d : Dep V) (hn : PlainName d.name) (inner : Dict Text (Inner V)) (m : Inner V)
    (hm : inner.get (d.name.map plainKeyChar) = some m) (i : Inner V) :
    ∃ l, plugins (wname d.name) (inner.put (d.name.map plainKeyChar ++ suffix) ⟨wname d.name, wv, true⟩) = some l ∧
      (i ∈ l ↔ (∃ k, (k, i) ∈ inner.put (d.name.map plainKeyChar ++ suffix) ⟨wname d.name, wv, true⟩) ∧ i.requested = true ∧
        i.name ≠ m.name ∧ i.name ≠ wname d.name) := by
  unfold plugins
  rw [main_installed wv d hn inner m hm]
  refine ⟨_, rfl, ?_⟩
  simp only [List.mem_filter, List.mem_map, Bool.and_eq_true, bne_iff_ne, ne_eq, Prod.exists, exists_eq_right]
  constructor
  · rintro ⟨h1, ⟨h2, h3⟩, h4⟩; exact ⟨h1, h2, h3, h4⟩
  · rintro ⟨h1, h2, h3, h4⟩; exact ⟨h1, ⟨h2, h3⟩, h4⟩

/-- C84 is violated if the environment has the application itself: its container is never found, and installing it always installs
it anew. -/
theorem shadowed_violated (wv : V) (resolve : Dep V → Option (Dict Text (Inner V)) → Option (Dict Text (Inner V))) (site site' : Site V)
    (d : Dep V) (update new : Bool) (hn : PlainName d.name) (i : Inst V) (hi : installed site d.name = some i) (hb : i.box = none)
    (h : install wv resolve site d update = some (site', new)) :
    new = true ∧ containerOf site' d.name = none ∧ containerOf site' (wname d.name) ≠ none ∧
    install wv resolve site' d false = (installNew wv resolve site' d).map (·, true) := by
  have hc0 : containerOf site d.name = none := by simp [containerOf, hi, hb]
  have hh : (installNew wv resolve site d).map (·, true) = some (site', new) := by
    unfold install at h
    split at h
    · exact h
    · rw [hc0] at h; exact h
  cases hin : installNew wv resolve site d with
  | none => rw [hin] at hh; cases hh
  | some s =>
    rw [hin] at hh
    simp at hh
    obtain ⟨rfl, h2⟩ := hh
    obtain ⟨inner, _, e⟩ := installNew_some wv resolve site s d hn hin
    have hc : containerOf s d.name = none := by
      rw [installed_plain site d.name hn] at hi
      unfold containerOf
      rw [installed_plain s d.name hn, e, Dict.get_put, if_neg (key_ne d.name).symm, hi]
      simp [hb]
    refine ⟨h2, hc, ?_, ?_⟩
    · unfold containerOf installed
      rw [key_wname d.name hn]
      simp only [Option.bind_some, e, Dict.get_put, if_true, Option.isSome_some]
      simp
    · simp [install, hc]

/-- A container in which a package of its own name is installed has a main package: that package, or the one without
the suffix. -/
theorem main_exists {V : Type} (name : Text) (box : Dict Text (Inner V)) (own : Inner V)
    (h : installed box name = some own) :
    mainOf name box = some own ∨ ∃ m, mainOf name box = some m ∧ installed box (name.take (name.length - 14)) = some m := by
  unfold mainOf
  have hl : suffix.length = 14 := by decide
  cases hk : packageNameKey name with
  | none => simp [h]
  | some k =>
    simp only
    split
    · rename_i i hi
      split at hi
      · exact .inr ⟨i, rfl, by rw [← hl]; exact hi⟩
      · cases hi
    · exact .inl h

example : installed [(t!"tool", (⟨t!"tool", 2, true⟩ : Inner Nat))] t!"Tool" = some ⟨t!"tool", 2, true⟩ ∧
    mainOf t!"Tool" [(t!"tool", (⟨t!"tool", 2, true⟩ : Inner Nat))] = some ⟨t!"tool", 2, true⟩ := by decide

/-- C84 is violated for an application whose name ends like that of a wrapper: another package is taken for it. -/
theorem main_violated : ∃ (name : Text) (box : Dict Text (Inner Nat)) (app other : Inner Nat),
    installed box name = some app ∧ app ≠ other ∧ mainOf name box = some other :=
  ⟨t!"x-containerized", [(t!"x", ⟨t!"x", 1, false⟩), (t!"x_containerized", ⟨t!"x-containerized", 2, true⟩)],
   ⟨t!"x-containerized", 2, true⟩, ⟨t!"x", 1, false⟩, by decide, by decide, by decide⟩

/-! ### example -/

def exResolve (d : Dep Nat) (old : Option (Dict Text (Inner Nat))) : Option (Dict Text (Inner Nat)) :=
  match packageNameKey d.name with
  | none => none
  | some k => match [1, 2, 3].find? d.allows with
    | none => none
    | some v => some ((old.getD []).put k ⟨d.name, v, true⟩)

theorem exResolve_resolves : Resolves exResolve := by
  intro d old new h
  unfold exResolve at h
  split at h
  · cases h
  · rename_i k hk
    split at h
    · cases h
    · rename_i v hv
      cases h
      exact ⟨k, ⟨d.name, v, true⟩, hk, by simp [Dict.get_put], List.find?_some hv⟩

def exTool : Dep Nat := ⟨t!"My.tool", fun v => v ≥ 2⟩
def exSite : Site Nat := [(t!"lib", ⟨t!"lib", 7, none⟩)]

example : PlainName exTool.name ∧ installed exSite exTool.name = none := by
  refine ⟨⟨⟨_, _, rfl, by decide⟩, ?_⟩, by decide⟩
  simp [exTool, SepsIsolated]; decide

example : (install 0 exResolve exSite exTool false).map (fun r => (r.1.map (·.2.name), r.2)) =
    some ([t!"lib", t!"My.tool-containerized"], true) := by decide

end Containers
end Pkm
