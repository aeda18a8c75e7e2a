import Verif.Conda.PinProps
set_option linter.unusedVariables false
set_option linter.unusedSimpArgs false
/-
C89: the Pythons and platforms conda artifacts are for.
-/
namespace Pkm
open Tags Conda Spec

namespace Spec

/-- The platform the artifacts of a subdirectory are made for. -/
def platformOf : List (Text × Plat) :=
  [(t!"linux-64", .linux .x86_64), (t!"linux-32", .named t!"linux_i386"), (t!"linux-aarch64", .manylinux2014 .aarch64),
   (t!"osx-arm64", .macosx 11 0 t!"arm64"), (t!"osx-64", .macosx 10 14 t!"x86_64"), (t!"win-64", .named t!"win_amd64"),
   (t!"win-32", .named t!"win32")]

/-- The least Python version, in two components, of a dependency on Python with a lower end. -/
def leastPython (m : SV) (incl : Bool) : List Nat := (if incl then m.release else incLast m.release).take 2

end Spec

namespace Conda

theorem tagTable_platform : ∀ e ∈ platformOf, tagTable.lookup e.1 = some e.2.text ∧ e.2.Ok := by
  intro e he
  simp only [platformOf, List.mem_cons, List.not_mem_nil, or_false] at he
  rcases he with rfl | rfl | rfl | rfl | rfl | rfl | rfl
  · exact ⟨by decide, trivial⟩
  · exact ⟨by decide, by simp only [Plat.Ok, Tags.Plain]; decide⟩
  · exact ⟨by decide, trivial⟩
  · exact ⟨by decide, by simp only [Plat.Ok, Tags.Plain]; decide⟩
  · exact ⟨by decide, by simp only [Plat.Ok, Tags.Plain]; decide⟩
  · exact ⟨by decide, by simp only [Plat.Ok, Tags.Plain]; decide⟩
  · exact ⟨by decide, by simp only [Plat.Ok, Tags.Plain]; decide⟩

theorem none_fits (sys : Sys) : SupportsAbi sys t!"none" := ⟨0, rfl⟩

theorem py_letters : Letters t!"py" := ⟨by decide, by decide⟩

end Conda

/-- C89. An artifact that needs Python from x.y on can be installed exactly for Python x.z with y ≤ z, on the platform
of its subdirectory, if none of its dependencies is impossible. (Partial: the upper end is not looked at, see
`conda_python_upper_violated`; for `Regular` interpreters.) -/
theorem conda_python_from_partial (env : UrlEnv) (sys : Sys) (hr : Regular sys) (sd : Subdir) (a : Art) (all : List Dep)
    (p : Plat) (m : SV) (mx : Option SV) (incl imx : Bool) (x y : Nat)
    (hp : (sd.name, p) ∈ platformOf) (ha : allDeps env sd a.2.depends = .ok all)
    (hpy : requiredPython all = .range (some m) mx incl imx) (hl : leastPython m incl = [x, y]) (hx : x < 10) :
    (∃ s, Installable env sys sd a s) ↔
      (x = sys.version.1 ∧ y ≤ sys.version.2 ∧ SupportsPlat sys p ∧ ∀ d ∈ all, d.name ≠ t!"python" → possible d = true) := by
  obtain ⟨ht, hok⟩ := tagTable_platform _ hp
  have htag : compatTag sd all = .ok (Tags.single ⟨t!"py", .glued x y⟩ t!"none" p).text := by
    simp only [compatTag, hpy, pyTag, ht]
    have e : (if incl = true then m.release else incLast m.release).take 2 = [x, y] := hl
    rw [e]
    simp [Tags.single, TagSet.text, joinDots, Interp.text, PyVer.text]
  have htok : (Tags.single ⟨t!"py", .glued x y⟩ t!"none" p).Ok :=
    ⟨⟨by simp [Tags.single], by simp only [Tags.single, List.mem_singleton]; rintro i rfl; exact ⟨py_letters, hx⟩⟩,
     ⟨by simp [Tags.single], by simp only [Tags.single, List.mem_singleton]; rintro i rfl; simp only [Tags.Plain]; decide⟩,
     ⟨by simp [Tags.single], by simp only [Tags.single, List.mem_singleton]; rintro i rfl; exact hok⟩⟩
  have hsc := scored_iff_supported_partial sys hr _ htok
  constructor
  · rintro ⟨s, all', tag, h1, h2, h3, h4⟩
    rw [ha] at h1; cases h1
    rw [htag] at h2; cases h2
    obtain ⟨i, hi, b, hb, q, hq, hs⟩ := hsc.mp ⟨s, h3⟩
    simp only [Tags.single, List.mem_singleton] at hi hb hq
    subst hi hb hq
    exact ⟨hs.1.2.1, hs.1.2.2, hs.2.2, h4⟩
  · rintro ⟨h1, h2, h3, h4⟩
    obtain ⟨s, hs⟩ := hsc.mpr ⟨⟨t!"py", .glued x y⟩, by simp [Tags.single], t!"none", by simp [Tags.single], p,
      by simp [Tags.single], ⟨⟨.inl rfl, h1, h2⟩, none_fits sys, h3⟩⟩
    exact ⟨s, all, _, ha, htag, hs, h4⟩

/-- C89. An artifact that does not depend on a Python can be installed for Python 2 and 3 on the platform of its
subdirectory, if none of its dependencies is impossible. (Partial: for `Regular` interpreters.) -/
theorem conda_python_any_partial (env : UrlEnv) (sys : Sys) (hr : Regular sys) (sd : Subdir) (a : Art) (all : List Dep)
    (p : Plat) (hp : (sd.name, p) ∈ platformOf) (ha : allDeps env sd a.2.depends = .ok all)
    (hpy : ∀ d ∈ all, d.name ≠ t!"python") :
    (∃ s, Installable env sys sd a s) ↔
      ((sys.version.1 = 2 ∨ sys.version.1 = 3) ∧ SupportsPlat sys p ∧ ∀ d ∈ all, possible d = true) := by
  obtain ⟨ht, hok⟩ := tagTable_platform _ hp
  have hreq : requiredPython all = .all := by
    unfold requiredPython
    have : all.find? (fun d => d.name == t!"python") = none := by
      rw [List.find?_eq_none]
      intro d hd
      simpa using hpy d hd
    rw [this]
  let T : TagSet := ⟨[⟨t!"py", .major 2⟩, ⟨t!"py", .major 3⟩], [t!"none"], [p]⟩
  have htag : compatTag sd all = .ok T.text := by
    simp only [compatTag, hreq, pyTag, ht]
    simp [T, TagSet.text, joinDots, Interp.text, PyVer.text]
    rfl
  have htok : T.Ok :=
    ⟨⟨by simp [T], by
        intro i hi
        simp only [T, List.mem_cons, List.not_mem_nil, or_false] at hi
        rcases hi with rfl | rfl <;> exact ⟨py_letters, by simp [PyVer.Ok]⟩⟩,
     ⟨by simp [T], by simp only [T, List.mem_singleton]; rintro i rfl; simp only [Tags.Plain]; decide⟩,
     ⟨by simp [T], by simp only [T, List.mem_singleton]; rintro i rfl; exact hok⟩⟩
  have hsc := scored_iff_supported_partial sys hr _ htok
  constructor
  · rintro ⟨s, all', tag, h1, h2, h3, h4⟩
    rw [ha] at h1; cases h1
    rw [htag] at h2; cases h2
    obtain ⟨i, hi, b, hb, q, hq, hs⟩ := hsc.mp ⟨s, h3⟩
    simp only [T, List.mem_cons, List.not_mem_nil, or_false] at hi hb hq
    subst hb hq
    refine ⟨?_, hs.2.2, fun d hd => h4 d hd (hpy d hd)⟩
    rcases hi with rfl | rfl
    · exact .inl hs.1.2.symm
    · exact .inr hs.1.2.symm
  · rintro ⟨h1, h3, h4⟩
    have : ∃ s, compatibilityScore sys T.text = some s := by
      rcases h1 with h1 | h1
      · exact hsc.mpr ⟨⟨t!"py", .major 2⟩, by simp [T], t!"none", by simp [T], p,
          by simp [T], ⟨⟨.inl rfl, h1.symm⟩, none_fits sys, h3⟩⟩
      · exact hsc.mpr ⟨⟨t!"py", .major 3⟩, by simp [T], t!"none", by simp [T], p,
          by simp [T], ⟨⟨.inl rfl, h1.symm⟩, none_fits sys, h3⟩⟩
    obtain ⟨s, hs⟩ := this
    exact ⟨s, all, _, ha, htag, hs, fun d hd _ => h4 d hd⟩

open Conda.Example in
/-- the dependencies of numpy: at least Python 3.6 and a blas that exists; it is installed in its second build -/
example : ∃ all, allDeps urls (repo.subdir t!"linux-64") [t!"python >=3.6,<3.7.0a0", t!"blas 1.0 mkl"] = .ok all ∧
    requiredPython all = .range (some { release := [3, 6] }) (some { release := [3, 7, 0], pre := some (['a'], 0) }) true false ∧
    leastPython { release := [3, 6] } true = [3, 6] ∧ ∀ d ∈ all, possible d = true :=
  ⟨_, rfl, rfl, rfl, by decide⟩

open Conda.Example in
/-- The claim "an artifact is only chosen for a Python it is made for" fails: the upper end of its dependency on Python
is not looked at. A build for Python 3.6 is what Python 3.10 gets. -/
theorem conda_python_upper_violated :
    ∃ a, best urls Tags.Example.linux310 (repo.subdir t!"linux-64") ⟨t!"numpy", t!"1.2", [data[2], data[3]]⟩ = .ok (some a) ∧
      ∃ all, allDeps urls (repo.subdir t!"linux-64") a.2.depends = .ok all ∧
        (requiredPython all).allows (.std { release := [3, 10] }) = false ∧ a.2.buildNumber = 1 := by
  refine ⟨data[3], by rfl, _, rfl, by decide, rfl⟩

/-- C89. Requests that do not name an artifact are answered from a subdirectory with a platform. -/
theorem conda_subdir_platform (pl : Platform) (s : Text) (h : subdirOf pl = .ok s) : ∃ p, (s, p) ∈ platformOf := by
  simp only [subdirOf] at h
  split at h
  · cases h
  · rename_i cpu hc
    split at h
    · rename_i t ht
      simp only [Except.ok.injEq] at h
      subst h
      have hcpu : cpu = t!"x86" ∨ cpu = t!"arm" := by
        unfold cpuOf at hc
        split at hc
        · cases hc; exact .inl rfl
        · split at hc
          · cases hc; exact .inr rfl
          · cases hc
      have hmem : ∀ (l : List (Text × Text)) (k v : Text), l.lookup k = some v → (k, v) ∈ l := by
        intro l k v
        induction l with
        | nil => simp
        | cons e l ih =>
          simp only [List.lookup]
          split
          · rename_i he
            intro hv
            cases hv
            have : k = e.1 := by simpa using he
            subst this
            exact List.mem_cons_self ..
          · intro hv; exact List.mem_cons_of_mem _ (ih hv)
      have hm := hmem _ _ _ ht
      simp only [subdirTable, List.mem_cons, List.not_mem_nil, or_false, Prod.mk.injEq] at hm
      rcases hm with ⟨_, rfl⟩ | ⟨_, rfl⟩ | ⟨_, rfl⟩ | ⟨_, rfl⟩ | ⟨_, rfl⟩ | ⟨_, rfl⟩ | ⟨_, rfl⟩ | ⟨he, rfl⟩
      · exact ⟨.linux .x86_64, by simp [platformOf]⟩
      · exact ⟨.named t!"linux_i386", by simp [platformOf]⟩
      · exact ⟨.manylinux2014 .aarch64, by simp [platformOf]⟩
      · exact ⟨.macosx 11 0 t!"arm64", by simp [platformOf]⟩
      · exact ⟨.macosx 10 14 t!"x86_64", by simp [platformOf]⟩
      · exact ⟨.named t!"win_amd64", by simp [platformOf]⟩
      · exact ⟨.named t!"win32", by simp [platformOf]⟩
      · exfalso
        have : '-' ∈ t!"any" := by rw [← he]; simp
        exact absurd this (by decide)
    · cases h

/-- C89. Where the packages for an interpreter are taken from. -/
theorem conda_subdir_table :
    subdirOf ⟨t!"linux", 64, t!"x86_64"⟩ = .ok t!"linux-64" ∧ subdirOf ⟨t!"linux", 32, t!"i386"⟩ = .ok t!"linux-32" ∧
    subdirOf ⟨t!"linux", 64, t!"aarch64"⟩ = .ok t!"linux-aarch64" ∧ subdirOf ⟨t!"darwin", 64, t!"x86_64"⟩ = .ok t!"osx-64" ∧
    subdirOf ⟨t!"windows", 64, t!"amd64"⟩ = .ok t!"win-64" ∧ subdirOf ⟨t!"windows", 32, t!"x86"⟩ = .ok t!"win-32" :=
  ⟨rfl, rfl, rfl, rfl, rfl, rfl⟩

/-- The claim "Macs with Apple's processor get their packages" fails: their machine, `arm64`, is not taken for one with
an ARM processor. Neither is `armv7l`. -/
theorem conda_apple_violated (os : Text) (bits : Nat) :
    subdirOf ⟨os, bits, t!"arm64"⟩ = .error .unsupported ∧ subdirOf ⟨os, bits, t!"armv7l"⟩ = .error .unsupported :=
  ⟨rfl, rfl⟩

/-- The claim "32-bit Linux can install the artifacts made for it" fails: no regular Linux interpreter calls its
platform `linux_i386`. -/
theorem conda_linux32_violated (env : UrlEnv) (sys : Sys) (hr : Regular sys) (hl : sys.system = t!"Linux") (sd : Subdir)
    (hn : sd.name = t!"linux-32") (a : Art) (all : List Dep) (ha : allDeps env sd a.2.depends = .ok all)
    (hpy : ∀ d ∈ all, d.name ≠ t!"python") (s : Score) : ¬ Installable env sys sd a s := by
  intro h
  have := (conda_python_any_partial env sys hr sd a all (.named t!"linux_i386") (by rw [hn]; simp [platformOf]) ha hpy).mp ⟨s, h⟩
  obtain ⟨⟨ar, h1⟩, _, _⟩ := hr.linux hl
  have h2 : t!"linux_i386" = t!"linux_" ++ ar.text := by rw [← h1.2.1]; exact this.2.1
  cases ar <;> exact absurd h2 (by decide)

namespace Conda

theorem scored_error (env : UrlEnv) (sys : Sys) (sd : Subdir) : ∀ (as : List Art) (a : Art), a ∈ as →
    (∀ all, allDeps env sd a.2.depends = .ok all → ∃ e, compatTag sd all = .error e) →
    ∃ e, scored env sys sd as = .error e
  | [], _, h, _ => by simp at h
  | b :: as, a, h, hb => by
    simp only [scored]
    cases h1 : allDeps env sd b.2.depends with
    | error e => exact ⟨e, rfl⟩
    | ok all =>
      simp only
      cases h2 : compatTag sd all with
      | error e => exact ⟨e, rfl⟩
      | ok tag =>
        simp only
        rcases List.mem_cons.mp h with e | e
        · subst e
          obtain ⟨e, he⟩ := hb all h1
          rw [he] at h2; cases h2
        · obtain ⟨e, he⟩ := scored_error env sys sd as a e hb
          exact ⟨e, by simp only [he]⟩

end Conda

/-- The claim "artifacts for any platform can be installed everywhere" fails: with any artifact of the subdirectory
`noarch` the choice fails, and no platform has it as its subdirectory. -/
theorem conda_noarch_violated (env : UrlEnv) (sys : Sys) (sd : Subdir) (hn : sd.name = t!"noarch") (p : Pkg) (a : Art)
    (ha : a ∈ p.artifacts) : (∃ e, best env sys sd p = .error e) ∧ ∀ pl, subdirOf pl ≠ .ok t!"noarch" := by
  constructor
  · obtain ⟨e, he⟩ := scored_error env sys sd p.artifacts a ha (fun all _ => by
      simp only [compatTag, hn]
      cases pyTag (requiredPython all) with
      | error e => exact ⟨e, rfl⟩
      | ok t => exact ⟨.key, rfl⟩)
    exact ⟨e, by simp only [best, he]⟩
  · intro pl h
    obtain ⟨p, hp⟩ := conda_subdir_platform pl _ h
    simp only [platformOf, List.mem_cons, List.not_mem_nil, or_false, Prod.mk.injEq] at hp
    rcases hp with ⟨h, _⟩ | ⟨h, _⟩ | ⟨h, _⟩ | ⟨h, _⟩ | ⟨h, _⟩ | ⟨h, _⟩ | ⟨h, _⟩ <;> exact absurd h (by decide)

/-- The claim "an artifact that cannot be used does no harm" fails: one with a dependency on an exact Python, on
alternatives, or without a least version, makes the choice for its package fail, whatever the other artifacts are. -/
theorem conda_odd_python_violated (env : UrlEnv) (sys : Sys) (sd : Subdir) (p : Pkg) (a : Art) (ha : a ∈ p.artifacts)
    (h : ∀ all, allDeps env sd a.2.depends = .ok all →
      (∃ v b, requiredPython all = .vmatch v b) ∨ (∃ l, requiredPython all = .union l) ∨
        ∃ mx i j, requiredPython all = .range none mx i j) :
    ∃ e, best env sys sd p = .error e := by
  obtain ⟨e, he⟩ := scored_error env sys sd p.artifacts a ha (fun all hall => by
    rcases h all hall with ⟨v, b, h⟩ | ⟨l, h⟩ | ⟨mx, i, j, h⟩
    · exact ⟨.unsupported, by simp only [compatTag, h, pyTag]⟩
    · exact ⟨.unsupported, by simp only [compatTag, h, pyTag]⟩
    · exact ⟨.attribute, by simp only [compatTag, h, pyTag]⟩)
  exact ⟨e, by simp only [best, he]⟩

open Conda.Example in
/-- such dependencies: `python 3.6`, `python 3.6*`, `python <3.9` -/
example : (∃ all, allDeps urls (repo.subdir t!"linux-64") [t!"python 3.6*"] = .ok all ∧ ∃ v b, requiredPython all = .vmatch v b) ∧
    (∃ all, allDeps urls (repo.subdir t!"linux-64") [t!"python <3.9"] = .ok all ∧ ∃ mx i j, requiredPython all = .range none mx i j) :=
  ⟨⟨_, rfl, _, _, rfl⟩, ⟨_, rfl, _, _, _, rfl⟩⟩

/-- The claim "a package can be asked for by the name it has in pkm" fails: packages with an underscore in their name
have a dash there, and the channel has nothing of that name. -/
theorem conda_name_violated (env : UrlEnv) (r : Repo) (pl : Platform) (s n m : Text) (hs : subdirOf pl = .ok s)
    (hn : descriptorName n = some m) (hm : ∀ e ∈ r.serve s, e.2.name ≠ m) :
    doMatch env r pl ⟨m, .all⟩ = .ok [] := by
  have hnu : ¬ AsksForUrl .all := fun h => h
  rw [doMatch_general _ _ _ _ hnu]
  have : general (r.subdir s) m = [] := by
    rw [general_eq, List.filter_eq_nil_iff]
    intro p hp
    rw [mem_packages] at hp
    intro h
    have h := of_decide_eq_true h
    obtain ⟨w, hw⟩ := List.exists_mem_of_ne_nil _ hp.2
    rw [hp.1, madeFor_mem] at hw
    exact hm w hw.1 (by rw [hw.2.1, h])
  simp only [matchGeneral, hs, this, allowed]
  rfl

example : descriptorName t!"typing_extensions" = some t!"typing-extensions" ∧
    descriptorName t!"_libgcc_mutex" = some t!"-libgcc-mutex" := by decide

/-- C89. The URL of a channel is put in lower case and loses the slashes at its end; one in lower case without such
slashes is kept. -/
theorem conda_channel_partial (c : Text) (hl : lower c = c) (hs : ∀ t, c ≠ t ++ ['/']) (n : Nat) :
    normalizeChannel (c ++ List.replicate n '/') = c := by
  have h : (c ++ List.replicate n '/').reverse.dropWhile (· == '/') = c.reverse := by
    rw [List.reverse_append, List.reverse_replicate]
    induction n with
    | zero =>
      simp only [List.replicate_zero, List.nil_append]
      cases hc : c.reverse with
      | nil => rfl
      | cons x xs =>
        have : c = xs.reverse ++ [x] := by rw [← List.reverse_reverse c, hc]; simp
        have hx : x ≠ '/' := by rintro rfl; exact hs _ this
        have hb : (x == '/') = false := by simpa using hx
        simp only [List.dropWhile, hb]
    | succ n ih => simpa [List.replicate_succ, List.dropWhile] using ih
  rw [normalizeChannel, h, List.reverse_reverse, hl]

example : normalizeChannel t!"https://repo.anaconda.com/pkgs/main/" = t!"https://repo.anaconda.com/pkgs/main" := by decide

/-- The claim "the channel is asked at the URL it was given" fails for URLs with capital letters. -/
theorem conda_channel_case_violated : normalizeChannel t!"https://c.org/Main" = t!"https://c.org/main" := by decide

open Conda.Example in
/-- the channel at work: the hypotheses of the theorems about offers are met -/
example : subdirOf ⟨t!"linux", 64, t!"x86_64"⟩ = .ok t!"linux-64" ∧ ¬ AsksForUrl .all ∧
    (doMatch urls repo ⟨t!"linux", 64, t!"x86_64"⟩ ⟨t!"numpy", .all⟩).toOption.map (·.map (·.2.1)) = some [.std { release := [1, 2] }] ∧
    (find urls Tags.Example.linux310 repo ⟨t!"linux", 64, t!"x86_64"⟩ ⟨t!"blas", .all⟩).toOption.map (·.length) = some 1 :=
  ⟨rfl, fun h => h, by rfl, by rfl⟩

end Pkm
