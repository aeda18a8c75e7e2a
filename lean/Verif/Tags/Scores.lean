import Verif.Tags.Platforms
/- The score of single tags and of compressed tag sets. -/
set_option linter.unusedVariables false
set_option linter.unusedSimpArgs false
namespace Pkm.Tags

/-- The platform texts that are written with an architecture, without it. -/
def archPart : Plat → Option (Text × Arch)
  | .manylinux x y a => some (t!"manylinux_" ++ showNat x ++ '_' :: showNat y, a)
  | .manylinux1 a => some (t!"manylinux1", a)
  | .manylinux2010 a => some (t!"manylinux2010", a)
  | .manylinux2014 a => some (t!"manylinux2014", a)
  | _ => none

/-- The glibc version a manylinux tag stands for. -/
def glibcOf : Plat → Option (Nat × Nat)
  | .manylinux x y _ => some (x, y)
  | .manylinux1 _ => some (2, 5)
  | .manylinux2010 _ => some (2, 12)
  | .manylinux2014 _ => some (2, 17)
  | _ => none

theorem many_text (p : Plat) (pre : Text) (a : Arch) (h : archPart p = some (pre, a)) :
    p.text = pre ++ '_' :: a.text ∧ t!"manylinux" <+: pre ∧
      ∃ v, glibcOf p = some v ∧ ∀ w, manyScore w pre = .ok (glibcScore w v) := by
  cases p <;> simp only [archPart, Option.some.injEq, Prod.mk.injEq, reduceCtorEq] at h
  · obtain ⟨rfl, rfl⟩ := h
    refine ⟨?_, ?_, _, rfl, fun w => many_version w _ _⟩
    · simp only [Plat.text, List.append_assoc, List.cons_append]
    · rw [List.append_assoc]; exact ⟨_, rfl⟩
  all_goals
    obtain ⟨rfl, rfl⟩ := h
    exact ⟨rfl, ⟨_, rfl⟩, _, rfl, fun w => rfl⟩

theorem supports_many (s : Sys) (p : Plat) (pre : Text) (a : Arch) (h : archPart p = some (pre, a)) (v : Nat × Nat)
    (hv : glibcOf p = some v) : SupportsPlat s p ↔ OnLinux s a ∧ Glibc s a v := by
  cases p <;> simp only [archPart, Option.some.injEq, Prod.mk.injEq, reduceCtorEq, glibcOf] at h hv
  all_goals
    obtain ⟨rfl, rfl⟩ := h
    subst hv
    rfl

/-- Platform tags other than `any`, the own one, manylinux ones on linux and macosx ones on macOS are not
scored. -/
theorem plt_none (s : Sys) (hr : Regular s) (c : Ctx) (hc : CtxOf s c) (t : Text) (h1 : t ≠ t!"any")
    (h2 : t ≠ normalize s.platform) (h3 : s.system = t!"Linux" → ¬ t!"manylinux" <+: t)
    (h4 : s.system = t!"Darwin" → ¬ t!"macosx" <+: t) : pltScore c t = .ok none := by
  unfold pltScore
  rw [if_neg h1, hc.platform, if_neg h2]
  by_cases hl : s.system = t!"Linux"
  · obtain ⟨⟨a, ha⟩, _⟩ := hr.linux hl
    obtain ⟨g, hg, _⟩ := hc.linux a ha
    rw [hg]
    exact linux_other a g t (fun e => h2 (e.trans ha.2.1.symm)) (h3 hl)
  · by_cases hd : s.system = t!"Darwin"
    · rw [hc.darwin hd]
      exact darwin_other _ _ t (h4 hd)
    · rw [hc.other hd hl]

theorem lit_prefix {l t u : Text} (h : ¬ l <+: u.take l.length) (e : t = u) : ¬ l <+: t := by
  subst e
  intro h'
  obtain ⟨r, hr⟩ := h'
  apply h
  rw [← hr]
  simp

/-- C52, platforms: the platform tags that get a score are the supported ones. -/
theorem plt_iff (s : Sys) (hr : Regular s) (c : Ctx) (hc : CtxOf s c) (p : Plat) (hp : p.Ok) :
    ∃ o, pltScore c p.text = .ok o ∧ (o.isSome = true ↔ SupportsPlat s p) := by
  have own : p.text ≠ t!"any" → p.text = normalize s.platform → pltScore c p.text = .ok (some (.whole 1, .whole 0, .whole 0)) := by
    intro h1 h2
    unfold pltScore
    rw [if_neg h1, hc.platform, if_pos h2]
  have noneCase : ∀ {q : Plat}, q = p → p.text ≠ t!"any" → p.text ≠ normalize s.platform →
      (s.system = t!"Linux" → ¬ t!"manylinux" <+: p.text) → (s.system = t!"Darwin" → ¬ t!"macosx" <+: p.text) →
      ¬ SupportsPlat s p → ∃ o, pltScore c p.text = .ok o ∧ (o.isSome = true ↔ SupportsPlat s p) := by
    intro q _ h1 h2 h3 h4 h5
    exact ⟨none, plt_none s hr c hc _ h1 h2 h3 h4, by simp [h5]⟩
  cases hap : archPart p with
  | some pa =>
    obtain ⟨pre, a⟩ := pa
    obtain ⟨e1, e2, v, e3, e4⟩ := many_text p pre a hap
    have hm : t!"manylinux" <+: p.text := by rw [e1]; exact e2.trans ⟨_, rfl⟩
    have nany : p.text ≠ t!"any" := by
      intro e; rw [e] at hm; revert hm; decide
    have hs := supports_many s p pre a hap v e3
    by_cases hl : s.system = t!"Linux"
    · obtain ⟨⟨b, hb⟩, ⟨w, hw⟩, _⟩ := hr.linux hl
      obtain ⟨g, hg, hgv⟩ := hc.linux b hb
      have nown : p.text ≠ normalize s.platform := by
        rw [hb.2.1]
        intro e; rw [e] at hm
        obtain ⟨r, hr⟩ := hm
        simp at hr
      have hsc : pltScore c p.text = if b = a then manyOpt g pre else .ok none := by
        unfold pltScore
        rw [if_neg nany, hc.platform, if_neg nown, hg]
        simp only [e1]
        exact linux_many b a g pre e2
      rw [hsc, hs]
      by_cases hab : b = a
      · subst hab
        rw [if_pos rfl, ← hgv v]
        cases g with
        | none => exact ⟨none, rfl, by simp⟩
        | some w =>
          refine ⟨glibcScore w v, e4 w, ?_⟩
          rw [glibcScore_iff]
          constructor
          · exact fun h => ⟨hb, w, rfl, h⟩
          · rintro ⟨_, u, h, h'⟩
            cases h
            exact h'
      · rw [if_neg hab]
        refine ⟨none, rfl, ?_⟩
        constructor
        · intro h; cases h
        · rintro ⟨h, _⟩
          exact absurd (arch_text_inj (List.append_cancel_left (hb.2.1.symm.trans h.2.1))) hab
    · have hpl := hr.platform hl
      refine noneCase rfl nany (fun e => hpl.2.1 (e ▸ hm)) (fun h => absurd h hl) ?_ ?_
      · intro _ h
        obtain ⟨r, h⟩ := h
        obtain ⟨r', h'⟩ := hm
        rw [← h] at h'
        simp at h'
      · rw [hs]; exact fun h => hl h.1.1
  | none =>
    cases p with
    | any => exact ⟨some (.whole 0, .whole 0, .whole 0), rfl, by simp [SupportsPlat]⟩
    | manylinux x y a => simp [archPart] at hap
    | manylinux1 a => simp [archPart] at hap
    | manylinux2010 a => simp [archPart] at hap
    | manylinux2014 a => simp [archPart] at hap
    | linux a =>
      have nany : (Plat.linux a).text ≠ t!"any" := by simp [Plat.text]
      have nmany : ¬ t!"manylinux" <+: (Plat.linux a).text := by
        rintro ⟨r, h⟩; simp [Plat.text] at h
      have nmac : ¬ t!"macosx" <+: (Plat.linux a).text := by
        rintro ⟨r, h⟩; simp [Plat.text] at h
      by_cases hl : s.system = t!"Linux"
      · obtain ⟨⟨b, hb⟩, _⟩ := hr.linux hl
        by_cases hab : a = b
        · subst hab
          exact ⟨_, own nany hb.2.1.symm, by simpa [SupportsPlat] using hb⟩
        · refine noneCase rfl nany ?_ (fun _ => nmany) (fun _ => nmac) ?_
          · rw [hb.2.1]; exact fun e => hab (arch_text_inj (List.append_cancel_left e))
          · exact fun h => hab (arch_text_inj (List.append_cancel_left (h.2.1.symm.trans hb.2.1)))
      · refine noneCase rfl nany (fun e => (hr.platform hl).1 a e.symm) (fun _ => nmany) (fun _ => nmac) (fun h => hl h.1)
    | musllinux x y a =>
      have nany : (Plat.musllinux x y a).text ≠ t!"any" := by simp [Plat.text]
      have nmany : ¬ t!"manylinux" <+: (Plat.musllinux x y a).text := by
        rintro ⟨r, h⟩; simp [Plat.text] at h
      have nmac : ¬ t!"macosx" <+: (Plat.musllinux x y a).text := by
        rintro ⟨r, h⟩; simp [Plat.text] at h
      have hmus : t!"musllinux" <+: (Plat.musllinux x y a).text := by
        simp only [Plat.text, List.append_assoc]; exact ⟨_, rfl⟩
      by_cases hl : s.system = t!"Linux"
      · obtain ⟨⟨b, hb⟩, _, hm⟩ := hr.linux hl
        refine noneCase rfl nany ?_ (fun _ => nmany) (fun _ => nmac) ?_
        · rw [hb.2.1]; simp [Plat.text]
        · rintro ⟨_, m, h, _⟩
          rw [hm] at h; cases h
      · refine noneCase rfl nany (fun e => (hr.platform hl).2.2 (e ▸ hmus)) (fun _ => nmany) (fun _ => nmac) (fun h => hl h.1.1)
    | macosx x y f =>
      have nany : (Plat.macosx x y f).text ≠ t!"any" := by simp [Plat.text]
      have nmany : ¬ t!"manylinux" <+: (Plat.macosx x y f).text := by
        rintro ⟨r, h⟩; simp [Plat.text] at h
      by_cases ho : (Plat.macosx x y f).text = normalize s.platform
      · exact ⟨_, own nany ho, by simp [SupportsPlat, ho]⟩
      · by_cases hd : s.system = t!"Darwin"
        · refine ⟨macScore s.macVersion (hostFormats s).reverse (x, y) f, ?_, ?_⟩
          · unfold pltScore
            rw [if_neg nany, hc.platform, if_neg ho, hc.darwin hd]
            exact darwin_mac _ _ x y f
          · rw [macScore_iff, List.mem_reverse, formats_iff]
            simp only [SupportsPlat, ho, false_or, hd, true_and]
        · refine noneCase rfl nany ho (fun _ => nmany) (fun h => absurd h hd) ?_
          rintro (h | h)
          · exact ho h
          · exact hd h.1
    | named t =>
      obtain ⟨hpl, na, nm, nx⟩ := hp
      by_cases ho : t = normalize s.platform
      · exact ⟨_, own na ho, by simp [SupportsPlat, ho]⟩
      · exact noneCase rfl na ho (fun _ => nm) (fun _ => nx) (fun h => ho h)

/-! Interpreters. -/

theorem iptName_text (s : Sys) (hr : Regular s) (c : Ctx) (hc : CtxOf s c) (i : Interp) (hi : Letters i.name) :
    iptName c i.text = if i.name = t!"py" then some (0, i.ver.text)
      else if i.name = shortName s.implName then some (1, i.ver.text) else none := by
  unfold iptName
  rw [iptFor_text _ i (by decide) hi.2, hc.ipt, iptFor_text _ i hr.name.2 hi.2]
  by_cases h1 : i.name = t!"py"
  · simp only [h1, if_true]
  · by_cases h2 : i.name = shortName s.implName
    · rw [if_neg h1, if_neg h1, if_pos h2, if_pos h2]; rfl
    · simp only [h1, h2, if_false, Option.map_none]

theorem ipt_iff (s : Sys) (hr : Regular s) (c : Ctx) (hc : CtxOf s c) (n : Nat) (p : Plt) (i : Interp)
    (hi : Letters i.name) (hv : i.ver.Ok) :
    ∃ o, iptScore c n p i.text = .ok o ∧ (o.isSome = true ↔ SupportsInterp s i) ∧
      ∀ x, o = some x → x = [.whole n, p.1, p.2.1, p.2.2, .whole (if i.name = t!"py" then 0 else 1),
        (vdscore s.version (i.ver.read s.version.2)).2] := by
  have hf : ∀ k, (finish c n p k (i.ver.read c.version.2)).isSome = true ↔ i.ver.Fits s.version := by
    intro k
    unfold finish
    rw [hc.version]
    by_cases h : s.version.1 ≠ (i.ver.read s.version.2).1 ∨ s.version.2 < (i.ver.read s.version.2).2
    · rw [if_pos h]
      have := mt (ver_fits s.version i.ver).mpr (fun h' => h' h)
      simp [this]
    · rw [if_neg h]
      simp [(ver_fits s.version i.ver).mp h]
  have hfx : ∀ k x, finish c n p k (i.ver.read c.version.2) = some x →
      x = [.whole n, p.1, p.2.1, p.2.2, .whole k, (vdscore s.version (i.ver.read s.version.2)).2] := by
    intro k x h
    unfold finish at h
    rw [hc.version] at h
    split at h
    · cases h
    · cases h; rfl
  unfold iptScore
  rw [iptName_text s hr c hc i hi]
  by_cases h1 : i.name = t!"py"
  · rw [if_pos h1]
    simp only [iptVersion_text _ _ hv]
    refine ⟨_, rfl, ?_, ?_⟩
    · rw [hf]; simp [SupportsInterp, h1]
    · intro x h; rw [if_pos h1]; exact hfx 0 x h
  · rw [if_neg h1]
    by_cases h2 : i.name = shortName s.implName
    · rw [if_pos h2]
      simp only [iptVersion_text _ _ hv]
      refine ⟨_, rfl, ?_, ?_⟩
      · rw [hf]; simp [SupportsInterp, h2]
      · intro x h; rw [if_neg h1]; exact hfx 1 x h
    · rw [if_neg h2]
      refine ⟨none, rfl, ?_, fun x h => by cases h⟩
      simp [SupportsInterp, h1, h2]

/-- The score of one tag. -/
theorem score1_ok (s : Sys) (hr : Regular s) (c : Ctx) (hc : CtxOf s c) (i : Interp) (a : Text) (p : Plat)
    (hi : Letters i.name) (hv : i.ver.Ok) (hp : p.Ok) :
    ∃ o, score1 c i.text a p.text = .ok o ∧ (o.isSome = true ↔ Supports s i a p) ∧
      ∀ x, o = some x → ∃ n q, indexOf (hostAbis s).reverse a = some n ∧ pltScore c p.text = .ok (some q) ∧
        x = [.whole n, q.1, q.2.1, q.2.2, .whole (if i.name = t!"py" then 0 else 1),
          (vdscore s.version (i.ver.read s.version.2)).2] := by
  have ha := abi_iff s a
  unfold score1
  rw [hc.abis]
  cases hx : indexOf (hostAbis s).reverse a with
  | none =>
    refine ⟨none, rfl, ?_, fun x h => by cases h⟩
    rw [hx] at ha
    have : ¬ SupportsAbi s a := fun h => by simpa using ha.mpr h
    simp [Supports, this]
  | some n =>
    rw [hx] at ha
    have ha' : SupportsAbi s a := ha.mp rfl
    obtain ⟨o, ho, hiff⟩ := plt_iff s hr c hc p hp
    cases o with
    | none =>
      have : ¬ SupportsPlat s p := fun h => by simpa using hiff.mpr h
      refine ⟨none, by simp [ho], by simp [Supports, this], fun x h => by cases h⟩
    | some q =>
      have hp' : SupportsPlat s p := hiff.mp rfl
      obtain ⟨o', ho', hi1, hi2⟩ := ipt_iff s hr c hc n q i hi hv
      refine ⟨o', by simp only [ho, ho'], ?_, ?_⟩
      · rw [hi1]; simp [Supports, ha', hp']
      · intro x h
        exact ⟨n, q, rfl, ho, hi2 x h⟩

/-! Texts of tag sets. -/

theorem interp_plain (i : Interp) (hi : Letters i.name) : Plain i.text := by
  have h := (ver_chars i.ver).1
  constructor <;>
  · simp only [Interp.text, List.mem_append, not_or]
    refine ⟨fun hm => ?_, fun hm => ?_⟩
    · have := hi.2 _ hm; revert this; decide
    · rcases h _ hm with h | h
      · revert h; decide
      · revert h; decide

theorem arch_plain (a : Arch) : Plain a.text := by
  cases a <;> (unfold Plain; decide)

theorem plat_plain (p : Plat) (h : p.Ok) : Plain p.text := by
  have hsn : ∀ n, Plain (showNat n) := fun n => ⟨show_no _ (by decide) n, show_no _ (by decide) n⟩
  have happ : ∀ a b : Text, Plain a → Plain b → Plain (a ++ b) := by
    intro a b ha hb
    exact ⟨by simp [ha.1, hb.1], by simp [ha.2, hb.2]⟩
  have hcons : ∀ b : Text, Plain b → Plain ('_' :: b) := by
    intro b hb
    exact ⟨by simp [hb.1], by simp [hb.2]⟩
  cases p with
  | any => unfold Plain; decide
  | linux a => exact happ _ _ (by unfold Plain; decide) (arch_plain a)
  | manylinux x y a => exact happ _ _ (happ _ _ (by unfold Plain; decide) (hsn x)) (hcons _ (happ _ _ (hsn y) (hcons _ (arch_plain a))))
  | manylinux1 a => exact happ _ _ (by unfold Plain; decide) (arch_plain a)
  | manylinux2010 a => exact happ _ _ (by unfold Plain; decide) (arch_plain a)
  | manylinux2014 a => exact happ _ _ (by unfold Plain; decide) (arch_plain a)
  | musllinux x y a => exact happ _ _ (happ _ _ (by unfold Plain; decide) (hsn x)) (hcons _ (happ _ _ (hsn y) (hcons _ (arch_plain a))))
  | macosx x y f => exact happ _ _ (happ _ _ (by unfold Plain; decide) (hsn x)) (hcons _ (happ _ _ (hsn y) (hcons _ h)))
  | named t => exact h.1

theorem tagset_split (t : TagSet) (h : t.Ok) :
    splitOn '-' t.text = [joinDots (t.interps.map Interp.text), joinDots t.abis, joinDots (t.plats.map Plat.text)] ∧
    splitOn '.' (joinDots (t.interps.map Interp.text)) = t.interps.map Interp.text ∧
    splitOn '.' (joinDots t.abis) = t.abis ∧
    splitOn '.' (joinDots (t.plats.map Plat.text)) = t.plats.map Plat.text := by
  have p1 : ∀ x ∈ t.interps.map Interp.text, Plain x := by
    intro x hx
    obtain ⟨i, hi, rfl⟩ := List.mem_map.mp hx
    exact interp_plain i (h.interps.2 i hi).1
  have p3 : ∀ x ∈ t.plats.map Plat.text, Plain x := by
    intro x hx
    obtain ⟨i, hi, rfl⟩ := List.mem_map.mp hx
    exact plat_plain i (h.plats.2 i hi)
  refine ⟨?_, ?_, ?_, ?_⟩
  · unfold TagSet.text
    rw [splitOn_step _ _ _ (joinDots_mem _ _ (by decide) (fun x hx => (p1 x hx).1)),
      splitOn_step _ _ _ (joinDots_mem _ _ (by decide) (fun x hx => (h.abis.2 x hx).1)),
      splitOn_one _ _ (joinDots_mem _ _ (by decide) (fun x hx => (p3 x hx).1))]
  · exact splitOn_dots _ (by simpa using h.interps.1) (fun x hx => (p1 x hx).2)
  · exact splitOn_dots _ h.abis.1 (fun x hx => (h.abis.2 x hx).2)
  · exact splitOn_dots _ (by simpa using h.plats.1) (fun x hx => (p3 x hx).2)

theorem mem_expand (is as ps : List Text) (t : Text × Text × Text) :
    t ∈ expand is as ps ↔ t.1 ∈ is ∧ t.2.1 ∈ as ∧ t.2.2 ∈ ps := by
  obtain ⟨i, a, p⟩ := t
  simp only [expand, List.mem_flatMap, List.mem_map, Prod.mk.injEq]
  constructor
  · rintro ⟨i', hi, a', ha, p', hp, rfl, rfl, rfl⟩
    exact ⟨hi, ha, hp⟩
  · rintro ⟨hi, ha, hp⟩
    exact ⟨i, hi, a, ha, p, hp, rfl, rfl, rfl⟩

/-- The score of a tag set, in terms of the scores of its tags. -/
theorem set_score (s : Sys) (hr : Regular s) (t : TagSet) (h : t.Ok) :
    ∃ c, CtxOf s c ∧
      (∀ i ∈ t.interps, ∀ a ∈ t.abis, ∀ p ∈ t.plats, ∀ x, score1 c i.text a p.text = .ok (some x) →
        ∃ y, compatibilityScore s t.text = some y ∧ scoreLt y x = false) ∧
      (∀ y, compatibilityScore s t.text = some y → ∃ i ∈ t.interps, ∃ a ∈ t.abis, ∃ p ∈ t.plats,
        score1 c i.text a p.text = .ok (some y)) := by
  obtain ⟨c, hm, hc⟩ := ctx_ok s hr
  refine ⟨c, hc, ?_⟩
  obtain ⟨e1, e2, e3, e4⟩ := tagset_split t h
  have mem : ∀ x, x ∈ expand (t.interps.map Interp.text) t.abis (t.plats.map Plat.text) →
      ∃ i ∈ t.interps, ∃ a ∈ t.abis, ∃ p ∈ t.plats, x = (i.text, a, p.text) := by
    rintro ⟨x1, x2, x3⟩ hx
    rw [mem_expand] at hx
    obtain ⟨h1, h2, h3⟩ := hx
    obtain ⟨i, hi, rfl⟩ := List.mem_map.mp h1
    obtain ⟨p, hp, rfl⟩ := List.mem_map.mp h3
    exact ⟨i, hi, x2, h2, p, hp, rfl⟩
  obtain ⟨r, hsc⟩ := scan_total c (expand (t.interps.map Interp.text) t.abis (t.plats.map Plat.text)) none (by
    intro x hx
    obtain ⟨i, hi, a, ha, p, hp, rfl⟩ := mem x hx
    obtain ⟨o, ho, _⟩ := score1_ok s hr c hc i a p (h.interps.2 i hi).1 (h.interps.2 i hi).2 (h.plats.2 p hp)
    exact ⟨o, ho⟩)
  have heq : compatibilityScore s t.text = r := by
    unfold compatibilityScore
    rw [e1]
    simp only [hm, e2, e3, e4, hsc]
  obtain ⟨_, h2, h3⟩ := scan_ok c _ _ _ hsc
  rw [heq]
  refine ⟨?_, ?_⟩
  · intro i hi a ha p hp x hx
    obtain ⟨o, ho, hy⟩ := h2 (i.text, a, p.text) ((mem_expand _ _ _ _).mpr
      ⟨List.mem_map_of_mem hi, ha, List.mem_map_of_mem hp⟩)
    simp only at ho
    rw [hx] at ho
    cases ho
    exact hy x rfl
  · intro y hy
    rcases h3 y hy with h' | ⟨x, hx, hx'⟩
    · cases h'
    · obtain ⟨i, hi, a, ha, p, hp, rfl⟩ := mem x hx
      exact ⟨i, hi, a, ha, p, hp, hx'⟩

end Pkm.Tags
