import Verif.Tags.Abis
/- The platforms of an interpreter: what the scorer makes of platform tags. -/
set_option linter.unusedVariables false
set_option linter.unusedSimpArgs false
namespace Pkm.Tags

theorem arch_suffix (pre : Text) (a b : Arch) : ('_' :: a.text) <:+ (pre ++ '_' :: b.text) ↔ a = b := by
  rw [← List.reverse_prefix]
  cases a <;> cases b <;> simp [Arch.text, List.cons_prefix_cons]

theorem take_arch (pre : Text) (a : Arch) :
    (pre ++ '_' :: a.text).take ((pre ++ '_' :: a.text).length - (a.text.length + 1)) = pre := by
  simp

theorem arch_text_inj {a b : Arch} (h : a.text = b.text) : a = b := by
  revert h
  cases a <;> cases b <;> decide

theorem compatible_iff (e : Elf) (a : Arch) : compatibleAbi e a.text = true ↔ ElfFits e a := by
  cases a with
  | armv7l => simp [compatibleAbi, Arch.text, ElfFits, isArmhf]; grind
  | i686 => simp [compatibleAbi, Arch.text, ElfFits, isI686]; grind
  | x86_64 => simp [compatibleAbi, Arch.text, ElfFits]
  | aarch64 => simp [compatibleAbi, Arch.text, ElfFits]
  | ppc64 => simp [compatibleAbi, Arch.text, ElfFits]
  | ppc64le => simp [compatibleAbi, Arch.text, ElfFits]
  | s390x => simp [compatibleAbi, Arch.text, ElfFits]

theorem linuxName_eq (s : Sys) (a : Arch) (h : OnLinux s a) : linuxName s = t!"linux_" ++ a.text := by
  obtain ⟨_, h2, h3⟩ := h
  unfold linuxName
  simp only [h2]
  cases h32 : s.is32 with
  | false => rfl
  | true =>
    obtain ⟨n1, n2⟩ := h3 h32
    simp only [if_true]
    rw [if_neg, if_neg]
    · intro e; exact n2 (arch_text_inj (List.append_cancel_left (e.trans (by decide : t!"linux_aarch64" = t!"linux_" ++ Arch.aarch64.text))))
    · intro e; exact n1 (arch_text_inj (List.append_cancel_left (e.trans (by decide : t!"linux_x86_64" = t!"linux_" ++ Arch.x86_64.text))))

/-- What the scorer knows about a regular interpreter. -/
structure CtxOf (s : Sys) (c : Ctx) : Prop where
  ipt : c.ipt = shortName s.implName
  version : c.version = s.version
  abis : c.abis = (hostAbis s).reverse
  platform : c.platform = normalize s.platform
  linux : ∀ a, OnLinux s a → ∃ g, c.host = .linux (t!"linux_" ++ a.text) a.text g none ∧
    ∀ v, (∃ w, g = some w ∧ NotNewer v w) ↔ Glibc s a v
  glibc : ∀ a w, OnLinux s a → s.glibc = some w → ∃ g, c.host = .linux (t!"linux_" ++ a.text) a.text g none ∧
    (g = none ∨ g = some w)
  darwin : s.system = t!"Darwin" → c.host = .darwin s.macVersion (hostFormats s).reverse
  other : s.system ≠ t!"Darwin" → s.system ≠ t!"Linux" → c.host = .other

theorem ctx_ok (s : Sys) (hr : Regular s) : ∃ c, mkCtx s = .ok c ∧ CtxOf s c := by
  by_cases hd : s.system = t!"Darwin"
  · refine ⟨⟨shortName s.implName, s.version, (hostAbis s).reverse, normalize s.platform,
      .darwin s.macVersion (hostFormats s).reverse⟩, by simp [mkCtx, mkHost, hd],
      ⟨rfl, rfl, rfl, rfl, ?_, ?_, fun _ => rfl, fun h => absurd hd h⟩⟩
    · intro a ha; rw [ha.1] at hd; exact absurd hd (by decide)
    · intro a w ha; rw [ha.1] at hd; exact absurd hd (by decide)
  · by_cases hl : s.system = t!"Linux"
    · obtain ⟨⟨a, ha⟩, ⟨w, hw⟩, hm⟩ := hr.linux hl
      have e1 := linuxName_eq s a ha
      have e2 : afterUnderscore (t!"linux_" ++ a.text) = some a.text := rfl
      have uniq : ∀ b, OnLinux s b → b = a := fun b hb =>
        arch_text_inj (List.append_cancel_left (hb.2.1.symm.trans ha.2.1))
      have hg : ∃ g, libcs s a.text = .ok (g, none) ∧ (g = none ∨ g = some w) ∧
          ∀ v, (∃ u, g = some u ∧ NotNewer v u) ↔ Glibc s a v := by
        unfold libcs
        cases he : s.elf with
        | none =>
          refine ⟨none, rfl, .inl rfl, fun v => ⟨fun ⟨u, h, _⟩ => (by cases h), ?_⟩⟩
          rintro ⟨e, g, h, _⟩
          rw [he] at h; cases h
        | some e =>
          cases hc : compatibleAbi e a.text with
          | true =>
            refine ⟨some w, by simp [hc, hw, hm], .inr rfl, fun v => ⟨?_, ?_⟩⟩
            · rintro ⟨u, h, h'⟩
              cases h
              exact ⟨e, w, he, (compatible_iff e a).mp hc, hw, h'⟩
            · rintro ⟨e', g, _, _, h, h'⟩
              rw [hw] at h; cases h
              exact ⟨w, rfl, h'⟩
          | false =>
            refine ⟨none, by simp [hc], .inl rfl, fun v => ⟨fun ⟨u, h, _⟩ => (by cases h), ?_⟩⟩
            rintro ⟨e', g, h, hf, _⟩
            rw [he] at h; cases h
            rw [(compatible_iff e a).mpr hf] at hc; cases hc
      obtain ⟨g, g1, g2, g3⟩ := hg
      have hn : ¬ t!"Linux" = t!"Darwin" := by decide
      have hctx : mkCtx s = .ok ⟨shortName s.implName, s.version, (hostAbis s).reverse, normalize s.platform,
          .linux (t!"linux_" ++ a.text) a.text g none⟩ := by
        unfold mkCtx mkHost
        rw [if_neg hd, if_pos hl, e1]
        simp only [e2, g1]
      refine ⟨_, hctx, ⟨rfl, rfl, rfl, rfl, ?_, ?_, fun h => absurd h hd, fun _ h => absurd hl h⟩⟩
      · intro b hb
        rw [uniq b hb]
        exact ⟨g, rfl, g3⟩
      · intro b v hb hv
        rw [uniq b hb]
        rw [hw] at hv; cases hv
        exact ⟨g, rfl, g2⟩
    · refine ⟨⟨shortName s.implName, s.version, (hostAbis s).reverse, normalize s.platform, .other⟩,
        by simp only [mkCtx, mkHost, hd, hl, if_false],
        ⟨rfl, rfl, rfl, rfl, ?_, ?_, fun h => absurd h hd, fun _ _ => rfl⟩⟩
      · intro a ha; exact absurd ha.1 hl
      · intro a w ha; exact absurd ha.1 hl

/-! Linux. -/

theorem linux_other (a : Arch) (g : Option (Nat × Nat)) (t : Text) (h1 : t ≠ t!"linux_" ++ a.text)
    (h2 : ¬ t!"manylinux" <+: t) : linuxScore (t!"linux_" ++ a.text) a.text g none t = .ok none := by
  unfold linuxScore
  simp only [h1, if_false]
  split
  · rfl
  · have : (t!"manylinux").isPrefixOf (t.take (t.length - (a.text.length + 1))) = false := by
      rw [← Bool.not_eq_true, List.isPrefixOf_iff_prefix]
      exact fun h => h2 (h.trans (List.take_prefix _ _))
    simp only [this, Bool.false_eq_true, if_false]

/-- The score of a manylinux tag on a glibc system, if it is one. -/
def manyOpt (g : Option (Nat × Nat)) (pre : Text) : Except Unit (Option Plt) :=
  match g with
  | some w => manyScore w pre
  | none => .ok none

/-- A manylinux tag: `pre` is the part before the architecture. -/
theorem linux_many (a b : Arch) (g : Option (Nat × Nat)) (pre : Text) (hp : t!"manylinux" <+: pre) :
    linuxScore (t!"linux_" ++ a.text) a.text g none (pre ++ '_' :: b.text) =
      if a = b then manyOpt g pre else .ok none := by
  have hne : pre ++ '_' :: b.text ≠ t!"linux_" ++ a.text := by
    obtain ⟨r, hr⟩ := hp
    rw [← hr]
    intro e
    simp at e
  unfold linuxScore
  simp only [hne, if_false]
  by_cases hab : a = b
  · subst hab
    have h1 : ('_' :: a.text).isSuffixOf (pre ++ '_' :: a.text) = true := by
      rw [List.isSuffixOf_iff_suffix]
      exact (arch_suffix pre a a).mpr rfl
    simp only [h1, take_arch, List.isPrefixOf_iff_prefix.mpr hp, if_true, Bool.not_true, Bool.false_eq_true, if_false]
    cases g <;> rfl
  · have h1 : ('_' :: a.text).isSuffixOf (pre ++ '_' :: b.text) = false := by
      rw [← Bool.not_eq_true, List.isSuffixOf_iff_suffix]
      exact fun h => hab ((arch_suffix pre a b).mp h)
    simp [h1, hab]

theorem many_version (w : Nat × Nat) (x y : Nat) :
    manyScore w (t!"manylinux_" ++ showNat x ++ '_' :: showNat y) = .ok (glibcScore w (x, y)) := by
  have hs : splitOn '_' (t!"manylinux_" ++ showNat x ++ '_' :: showNat y) =
      [t!"manylinux", showNat x, showNat y] := by
    have e : t!"manylinux_" ++ showNat x ++ '_' :: showNat y =
        t!"manylinux" ++ '_' :: (showNat x ++ '_' :: showNat y) := by
      rw [List.append_assoc]; rfl
    rw [e, splitOn_step _ _ _ (by decide), splitOn_step _ _ _ (show_no _ (by decide) x),
      splitOn_one _ _ (show_no _ (by decide) y)]
  have hl : legacy (t!"manylinux_" ++ showNat x ++ '_' :: showNat y) = none := by
    simp [legacy]
  simp only [manyScore, hl, hs, List.drop_succ_cons, List.drop_zero, List.take_succ_cons, List.take_zero, ints, pyInt_show]

theorem glibcScore_iff (w v : Nat × Nat) : (glibcScore w v).isSome = true ↔ NotNewer v w := by
  unfold glibcScore
  cases h : verLt w v with
  | true => simp [(verLt_iff _ _).mp h]
  | false => simp [(verLt_false _ _).mp h]

/-! macOS. -/

theorem darwin_other (v : Nat × Nat) (fs : List Text) (t : Text) (h : ¬ t!"macosx" <+: t) :
    darwinScore v fs t = .ok none := by
  obtain ⟨r, hr⟩ := splitMax_head '_' t 2
  have hne : t.takeWhile (· ≠ '_') ≠ t!"macosx" := by
    intro e
    apply h
    rw [← e]
    exact List.takeWhile_prefix _
  unfold darwinScore
  rw [hr]
  simp only [hne, ne_eq, not_false_eq_true, if_true]

theorem darwin_mac (v : Nat × Nat) (fs : List Text) (x y : Nat) (f : Text) :
    darwinScore v fs (Plat.macosx x y f).text = .ok (macScore v fs (x, y) f) := by
  have hs : splitMax '_' (Plat.macosx x y f).text 3 = [t!"macosx", showNat x, showNat y, f] := by
    have e : (Plat.macosx x y f).text = t!"macosx" ++ '_' :: (showNat x ++ '_' :: (showNat y ++ '_' :: f)) := by
      change t!"macosx_" ++ showNat x ++ '_' :: (showNat y ++ '_' :: f) = _
      generalize showNat x = a
      generalize showNat y ++ '_' :: f = b
      rw [List.append_assoc]
      rfl
    rw [e, splitMax_step _ _ _ _ (by decide), splitMax_step _ _ _ _ (show_no _ (by decide) x),
      splitMax_step _ _ _ _ (show_no _ (by decide) y), splitMax_zero]
  unfold darwinScore
  rw [hs]
  simp only [ne_eq, not_true_eq_false, if_false, ints, pyInt_show]

theorem macScore_iff (v : Nat × Nat) (fs : List Text) (w : Nat × Nat) (f : Text) :
    (macScore v fs w f).isSome = true ↔ NotNewer w v ∧ f ∈ fs := by
  unfold macScore
  cases h : verLt v w with
  | true => simp [(verLt_iff _ _).mp h]
  | false =>
    simp only [Bool.false_eq_true, if_false, (verLt_false _ _).mp h, true_and]
    rw [← indexOf_mem]
    cases indexOf fs f <;> simp

theorem macCpu_iff (s : Sys) (cpu : Text) : MacCpu s cpu ↔ cpu = macArch s.macCpu s.is32 := by
  unfold MacCpu macArch
  cases s.is32 with
  | false => simp
  | true =>
    by_cases h : t!"ppc" <+: s.macCpu
    · have := List.isPrefixOf_iff_prefix.mpr h
      simp only [h, this, Bool.not_true, Bool.false_eq_true, if_false, if_true, not_true, false_and, or_false, true_and,
        reduceCtorEq, false_or]
    · have : (t!"ppc").isPrefixOf s.macCpu = false := by
        rw [← Bool.not_eq_true, List.isPrefixOf_iff_prefix]; exact h
      simp only [h, this, Bool.not_true, Bool.false_eq_true, if_false, if_true, not_false_eq_true, false_and, or_false, true_and,
        reduceCtorEq, false_or]

theorem macExtra_none (v : Nat × Nat) (cpu : Text) : macExtra v cpu = none ↔ ¬ CpuExists v cpu := by
  unfold macExtra CpuExists
  by_cases h1 : cpu = t!"x86_64"
  · subst h1
    cases h : verLt v (10, 4) with
    | true => have := (verLt_iff _ _).mp h; simp [this]
    | false => have := (verLt_false _ _).mp h; simp [this]
  by_cases h2 : cpu = t!"i386"
  · subst h2
    cases h : verLt v (10, 4) with
    | true => have := (verLt_iff _ _).mp h; simp [this]
    | false => have := (verLt_false _ _).mp h; simp [this]
  by_cases h3 : cpu = t!"ppc64"
  · subst h3
    cases h : verLt v (10, 4) with
    | true => have := (verLt_iff _ _).mp h; simp [this]
    | false =>
      have := (verLt_false _ _).mp h
      cases h' : verLt (10, 5) v with
      | true => have := (verLt_iff _ _).mp h'; simp [this]
      | false => have := (verLt_false _ _).mp h'; simp [*]
  by_cases h4 : cpu = t!"ppc"
  · subst h4
    cases h : verLt (10, 6) v with
    | true => have := (verLt_iff _ _).mp h; simp [this]
    | false => have := (verLt_false _ _).mp h; simp [this]
  simp only [h1, h2, h3, h4, if_false]
  simp

theorem formats_iff (s : Sys) (f : Text) : f ∈ hostFormats s ↔ MacRuns s f := by
  have hm : MacRuns s f ↔ (CpuExists s.macVersion (macArch s.macCpu s.is32) ∧ Contains f (macArch s.macCpu s.is32)) ∨
      (11 ≤ s.macVersion.1 ∧ f = t!"universal2") := by
    unfold MacRuns
    constructor
    · rintro ⟨cpu, h, h'⟩
      rw [(macCpu_iff s cpu).mp h] at h'
      exact h'
    · intro h
      exact ⟨_, (macCpu_iff s _).mpr rfl, h⟩
  rw [hm]
  unfold hostFormats macFormats
  generalize macArch s.macCpu s.is32 = cpu
  have hx : (cpu = t!"x86_64" → 11 ≤ s.macVersion.1 → CpuExists s.macVersion cpu) := by
    rintro rfl h
    refine ⟨fun _ => by unfold NotNewer; simp; omega, fun h => absurd h (by decide), fun h => absurd h (by decide)⟩
  have hn := macExtra_none s.macVersion cpu
  cases he : macExtra s.macVersion cpu with
  | none =>
    have hc := hn.mp he
    simp only [List.nil_append, hc, false_and, false_or, he]
    constructor
    · intro h
      split at h
      · rename_i h'
        simp only [List.mem_singleton] at h
        exact ⟨h'.1, h⟩
      · cases h
    · rintro ⟨h1, h2⟩
      rw [if_pos ⟨h1, fun e => hc (hx e h1)⟩]
      simp [h2]
  | some ex =>
    have hc : CpuExists s.macVersion cpu := Classical.byContradiction fun h => by rw [hn.mpr h] at he; cases he
    simp only [hc, true_and, he]
    unfold macExtra at he
    unfold Contains
    by_cases h1 : cpu = t!"x86_64"
    · subst h1
      simp only [if_true] at he
      split at he
      · cases he
      · cases he; simp; grind
    by_cases h2 : cpu = t!"i386"
    · subst h2
      simp only [if_true, h1, if_false] at he
      split at he
      · cases he
      · cases he; simp; grind
    by_cases h3 : cpu = t!"ppc64"
    · subst h3
      simp only [if_true, h1, h2, if_false] at he
      split at he
      · cases he
      · cases he; simp; grind
    by_cases h4 : cpu = t!"ppc"
    · subst h4
      simp only [if_true, h1, h2, h3, if_false] at he
      split at he
      · cases he
      · cases he; simp; grind
    simp only [h1, h2, h3, h4, if_false, Option.some.injEq] at he
    subst he
    by_cases h5 : cpu = t!"arm64"
    · subst h5; simp; grind
    by_cases h6 : cpu = t!"intel"
    · subst h6; simp [or_assoc]
    simp [h1, h2, h3, h4, h5, h6]

end Pkm.Tags
