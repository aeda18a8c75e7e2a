import Verif.Tags.Scores
/-
C52: which wheels an interpreter takes, and which it prefers. The vocabulary is in `Verif.Tags.Spec`.
-/
set_option linter.unusedVariables false
set_option linter.unusedSimpArgs false
namespace Pkm.Tags

/-- C52. A wheel gets a score exactly if one of the tags of its compressed tag set is supported by the
interpreter: its interpreter tag, its ABI and its platform all are. (Partial: for `Regular`
interpreters and tag sets written as the standards say; see the `_violated` theorems.) -/
theorem scored_iff_supported_partial (s : Sys) (hr : Regular s) (t : TagSet) (h : t.Ok) :
    (∃ x, compatibilityScore s t.text = some x) ↔
      ∃ i ∈ t.interps, ∃ a ∈ t.abis, ∃ p ∈ t.plats, Supports s i a p := by
  obtain ⟨c, hc, h1, h2⟩ := set_score s hr t h
  constructor
  · rintro ⟨x, hx⟩
    obtain ⟨i, hi, a, ha, p, hp, hs⟩ := h2 x hx
    obtain ⟨o, ho, hiff, _⟩ := score1_ok s hr c hc i a p (h.interps.2 i hi).1 (h.interps.2 i hi).2 (h.plats.2 p hp)
    rw [hs] at ho
    cases ho
    exact ⟨i, hi, a, ha, p, hp, hiff.mp rfl⟩
  · rintro ⟨i, hi, a, ha, p, hp, hs⟩
    obtain ⟨o, ho, hiff, _⟩ := score1_ok s hr c hc i a p (h.interps.2 i hi).1 (h.interps.2 i hi).2 (h.plats.2 p hp)
    have := hiff.mpr hs
    cases o with
    | none => cases this
    | some x =>
      obtain ⟨y, hy, _⟩ := h1 i hi a ha p hp x ho
      exact ⟨y, hy⟩

theorem single_ok {t : TagSet} (h : t.Ok) {i : Interp} {a : Text} {p : Plat} (hi : i ∈ t.interps) (ha : a ∈ t.abis)
    (hp : p ∈ t.plats) : (single i a p).Ok :=
  ⟨⟨by simp [single], fun x hx => by
      simp only [single, List.mem_singleton] at hx; subst hx; exact h.interps.2 _ hi⟩,
    ⟨by simp [single], fun x hx => by
      simp only [single, List.mem_singleton] at hx; subst hx; exact h.abis.2 _ ha⟩,
    ⟨by simp [single], fun x hx => by
      simp only [single, List.mem_singleton] at hx; subst hx; exact h.plats.2 _ hp⟩⟩

/-- The score of the set of one tag. -/
theorem single_score (s : Sys) (hr : Regular s) (i : Interp) (a : Text) (p : Plat) (h : (single i a p).Ok) (c : Ctx)
    (hm : mkCtx s = .ok c) : score1 c i.text a p.text = .ok (compatibilityScore s (single i a p).text) := by
  obtain ⟨c', hm', hc'⟩ := ctx_ok s hr
  rw [hm] at hm'; cases hm'
  obtain ⟨e1, e2, e3, e4⟩ := tagset_split _ h
  obtain ⟨o, ho, _⟩ := score1_ok s hr c hc' i a p (h.interps.2 i (by simp [single])).1 (h.interps.2 i (by simp [single])).2
    (h.plats.2 p (by simp [single]))
  unfold compatibilityScore
  rw [e1]
  simp only [hm, e2, e3, e4]
  simp only [single, List.map_cons, List.map_nil, expand, List.flatMap_cons, List.flatMap_nil, List.append_nil, scan, ho]
  cases o <;> rfl

/-- C52. The score of a wheel is the best of the scores of its tags. -/
theorem set_has_best_score (s : Sys) (hr : Regular s) (t : TagSet) (h : t.Ok) (x : Score)
    (hx : compatibilityScore s t.text = some x) :
    (∃ i ∈ t.interps, ∃ a ∈ t.abis, ∃ p ∈ t.plats, compatibilityScore s (single i a p).text = some x) ∧
    (∀ i ∈ t.interps, ∀ a ∈ t.abis, ∀ p ∈ t.plats, ∀ y, compatibilityScore s (single i a p).text = some y →
      scoreLt x y = false) := by
  obtain ⟨c, hm, hc⟩ := ctx_ok s hr
  obtain ⟨e1, e2, e3, e4⟩ := tagset_split t h
  have tot : ∀ i ∈ t.interps, ∀ a ∈ t.abis, ∀ p ∈ t.plats,
      score1 c i.text a p.text = .ok (compatibilityScore s (single i a p).text) := fun i hi a ha p hp =>
    single_score s hr i a p (single_ok h hi ha hp) c hm
  unfold compatibilityScore at hx
  rw [e1] at hx
  simp only [hm, e2, e3, e4] at hx
  cases hsc : scan c (expand (t.interps.map Interp.text) t.abis (t.plats.map Plat.text)) none with
  | error e => rw [hsc] at hx; cases hx
  | ok r =>
    rw [hsc] at hx
    simp only at hx
    subst hx
    obtain ⟨_, h2, h3⟩ := scan_ok c _ _ _ hsc
    constructor
    · rcases h3 x rfl with h' | ⟨⟨x1, x2, x3⟩, hx, hx'⟩
      · cases h'
      · rw [mem_expand] at hx
        obtain ⟨m1, m2, m3⟩ := hx
        obtain ⟨i, hi, rfl⟩ := List.mem_map.mp m1
        obtain ⟨p, hp, rfl⟩ := List.mem_map.mp m3
        refine ⟨i, hi, x2, m2, p, hp, ?_⟩
        have := tot i hi x2 m2 p hp
        simp only at hx'
        rw [hx'] at this
        exact (Except.ok.inj this).symm
    · intro i hi a ha p hp y hy
      obtain ⟨o, ho, hy'⟩ := h2 (i.text, a, p.text) ((mem_expand _ _ _ _).mpr
        ⟨List.mem_map_of_mem hi, ha, List.mem_map_of_mem hp⟩)
      simp only at ho
      rw [tot i hi a ha p hp, hy] at ho
      cases ho
      obtain ⟨z, hz, hzy⟩ := hy' y rfl
      cases hz
      exact hzy

/-- What a single tag's score is made of. -/
theorem single_parts (s : Sys) (hr : Regular s) (i : Interp) (a : Text) (p : Plat) (h : (single i a p).Ok) (x : Score)
    (hx : compatibilityScore s (single i a p).text = some x) (c : Ctx) (hm : mkCtx s = .ok c) :
    ∃ n q, indexOf (hostAbis s).reverse a = some n ∧ pltScore c p.text = .ok (some q) ∧
        x = [.whole n, q.1, q.2.1, q.2.2, .whole (if i.name = t!"py" then 0 else 1),
          (vdscore s.version (i.ver.read s.version.2)).2] := by
  obtain ⟨c', hm', hc'⟩ := ctx_ok s hr
  rw [hm] at hm'; cases hm'
  have h1 := single_score s hr i a p h c hm
  rw [hx] at h1
  obtain ⟨o, ho, _, hp⟩ := score1_ok s hr c hc' i a p (h.interps.2 i (by simp [single])).1 (h.interps.2 i (by simp [single])).2
    (h.plats.2 p (by simp [single]))
  rw [h1] at ho
  cases ho
  exact hp x rfl

theorem Frac.whole_lt (a b : Nat) : (Frac.whole a).lt (Frac.whole b) = decide (a < b) := by
  simp [Frac.lt, Frac.whole]

/-- C52. Of two tags the interpreter supports, the one whose ABI fits better is preferred, whatever the
rest: the own ABI, then the release ABI on a debug build, then the stable ABI, then `none`. -/
theorem better_abi_preferred (s : Sys) (hr : Regular s) (i j : Interp) (a b : Text) (p q : Plat)
    (h1 : (single i a p).Ok) (h2 : (single j b q).Ok) (x y : Score)
    (hx : compatibilityScore s (single i a p).text = some x) (hy : compatibilityScore s (single j b q).text = some y)
    (n m : Nat) (ha : AbiFits s a n) (hb : AbiFits s b m) (hlt : n < m) (hne : a ≠ b) : scoreLt x y = true := by
  obtain ⟨c, hm, hc⟩ := ctx_ok s hr
  obtain ⟨n1, q1, e1, _, rfl⟩ := single_parts s hr i a p h1 x hx c hm
  obtain ⟨n2, q2, e2, _, rfl⟩ := single_parts s hr j b q h2 y hy c hm
  obtain ⟨k1, k2, e1', e2', hk⟩ := abi_mono s a b n m ha hb hlt hne
  rw [e1] at e1'; cases e1'
  rw [e2] at e2'; cases e2'
  simp [scoreLt, Frac.whole_lt, hk]

/-- Scores of platforms other than `any` start with a positive whole number. -/
theorem plt_positive (c : Ctx) (t : Text) (h : t ≠ t!"any") (q : Plt) (hq : pltScore c t = .ok (some q)) :
    ∃ k, q.1 = .whole (k + 1) := by
  have hg : ∀ w v q, glibcScore w v = some q → ∃ k, q.1 = .whole (k + 1) := by
    intro w v q hq
    unfold glibcScore at hq
    split at hq
    · cases hq
    · cases hq; exact ⟨0, rfl⟩
  unfold pltScore at hq
  rw [if_neg h] at hq
  split at hq
  · cases hq; exact ⟨0, rfl⟩
  · split at hq
    · unfold darwinScore at hq
      split at hq
      · split at hq
        · cases hq
        · split at hq
          · split at hq
            · simp only [Except.ok.injEq] at hq
              unfold macScore at hq
              split at hq
              · cases hq
              · split at hq
                · cases hq
                · cases hq; exact ⟨_, rfl⟩
            · cases hq
          · cases hq
      · cases hq
    · unfold linuxScore at hq
      simp only at hq
      split at hq
      · cases hq; exact ⟨0, rfl⟩
      · split at hq
        · cases hq
        · split at hq
          · split at hq
            · unfold manyScore at hq
              split at hq
              · exact hg _ _ q (Except.ok.inj hq)
              · split at hq
                · cases hq
                · exact hg _ _ q (Except.ok.inj hq)
                · cases hq
            · cases hq
          · split at hq
            · split at hq
              · unfold muslScore at hq
                split at hq
                · cases hq
                · split at hq
                  · split at hq
                    · cases hq
                    · cases hq; exact ⟨0, rfl⟩
                  · cases hq
              · cases hq
            · cases hq
    · cases hq

theorem text_any (p : Plat) (hp : p.Ok) (h : p ≠ .any) : p.text ≠ t!"any" := by
  cases p with
  | any => exact absurd rfl h
  | named t => exact hp.2.1
  | _ => simp [Plat.text]

/-- C52. With the same ABI, a wheel for a specific platform is preferred to one for any platform. -/
theorem specific_platform_preferred (s : Sys) (hr : Regular s) (i j : Interp) (a : Text) (p : Plat)
    (h1 : (single i a .any).Ok) (h2 : (single j a p).Ok) (hp : p ≠ .any) (x y : Score)
    (hx : compatibilityScore s (single i a .any).text = some x) (hy : compatibilityScore s (single j a p).text = some y) :
    scoreLt x y = true := by
  obtain ⟨c, hm, hc⟩ := ctx_ok s hr
  obtain ⟨n1, q1, e1, f1, rfl⟩ := single_parts s hr i a _ h1 x hx c hm
  obtain ⟨n2, q2, e2, f2, rfl⟩ := single_parts s hr j a p h2 y hy c hm
  rw [e1] at e2; cases e2
  have g1 : q1 = (.whole 0, .whole 0, .whole 0) := by
    simp only [pltScore, Plat.text, if_true, Except.ok.injEq, Option.some.injEq] at f1
    exact f1.symm
  have g2 := plt_positive c p.text (text_any p (h2.plats.2 p (by simp [single])) hp) q2 f2
  obtain ⟨k, hk⟩ := g2
  simp [scoreLt, Frac.whole_lt, g1, hk]


/-- A manylinux tag's platform score. -/
theorem many_plt (s : Sys) (hr : Regular s) (c : Ctx) (hc : CtxOf s c) (p : Plat) (v g : Nat × Nat)
    (hv : glibcOf p = some v) (hg : s.glibc = some g) (q : Plt) (hq : pltScore c p.text = .ok (some q)) :
    q = (.whole 1, vdscore v g) ∧ NotNewer v g ∧ s.system = t!"Linux" := by
  have hap : ∃ pre a, archPart p = some (pre, a) := by
    cases p <;> simp [glibcOf] at hv <;> exact ⟨_, _, rfl⟩
  obtain ⟨pre, a, hap⟩ := hap
  obtain ⟨e1, e2, v', e3, e4⟩ := many_text p pre a hap
  rw [hv] at e3; cases e3
  have hp : p.Ok := by cases p <;> simp [glibcOf] at hv <;> trivial
  obtain ⟨o, ho, hiff⟩ := plt_iff s hr c hc p hp
  rw [hq] at ho; cases ho
  have hs := (supports_many s p pre a hap v hv).mp (hiff.mp rfl)
  obtain ⟨gg, hh, hor⟩ := hc.glibc a g hs.1 hg
  have hm : t!"manylinux" <+: p.text := by rw [e1]; exact e2.trans ⟨_, rfl⟩
  have nany : p.text ≠ t!"any" := by
    intro e; rw [e] at hm; revert hm; decide
  have nown : p.text ≠ normalize s.platform := by
    rw [hs.1.2.1]
    intro e; rw [e] at hm
    obtain ⟨r, hr⟩ := hm
    simp at hr
  have hsc : pltScore c p.text = if a = a then manyOpt gg pre else .ok none := by
    unfold pltScore
    rw [if_neg nany, hc.platform, if_neg nown, hh]
    have hl := linux_many a a gg pre e2
    rw [if_pos rfl] at hl ⊢
    simp only [e1]
    exact hl
  rw [if_pos rfl, hq] at hsc
  rcases hor with rfl | rfl
  · cases hsc
  · simp only [manyOpt, e4, glibcScore, Except.ok.injEq] at hsc
    cases hl : verLt g v with
    | true => simp [hl] at hsc
    | false =>
      simp only [hl, Bool.false_eq_true, if_false, Option.some.injEq] at hsc
      exact ⟨hsc, (verLt_false _ _).mp hl, hs.1.1⟩

theorem vd_lt (v w g : Nat × Nat) (hv : NotNewer v g) (hw : NotNewer w g)
    (h : v.1 < w.1 ∨ (v.1 = w.1 ∧ w.1 = g.1 ∧ v.2 < w.2)) (k : Frac) (r r' : List Frac) :
    scoreLt (k :: (vdscore v g).1 :: (vdscore v g).2 :: r) (k :: (vdscore w g).1 :: (vdscore w g).2 :: r') = true := by
  have h1 : ∀ a b r r', scoreLt (k :: a :: r) (k :: b :: r') = if a.lt b then true else if b.lt a then false else scoreLt r r' := by
    intro a b r r'
    simp [scoreLt, Frac.lt_irrefl]
  have h2 : ∀ a b r r', a.lt b = true → scoreLt (k :: a :: r) (k :: b :: r') = true := by
    intro a b r r' hab
    rw [h1, hab]; rfl
  unfold NotNewer at hv hw
  rcases h with h | ⟨e1, e2, h⟩
  · have hv1 : ¬ v.1 = g.1 := by omega
    have e : vdscore v g = (⟨1, dist v.1 g.1⟩, ⟨0, 0⟩) := by simp [vdscore, hv1]
    rw [e]
    by_cases hw1 : w.1 = g.1
    · have e' : vdscore w g = (⟨1, 0⟩, ⟨1, dist w.2 g.2⟩) := by simp [vdscore, hw1]
      rw [e']
      apply h2
      simp [Frac.lt, dist]; omega
    · have e' : vdscore w g = (⟨1, dist w.1 g.1⟩, ⟨0, 0⟩) := by simp [vdscore, hw1]
      rw [e']
      apply h2
      simp [Frac.lt, dist]; omega
  · have e : vdscore v g = (⟨1, 0⟩, ⟨1, dist v.2 g.2⟩) := by simp [vdscore, e1, e2]
    have e' : vdscore w g = (⟨1, 0⟩, ⟨1, dist w.2 g.2⟩) := by simp [vdscore, e2]
    rw [e, e', h1]
    have l1 : (⟨1, 0⟩ : Frac).lt ⟨1, 0⟩ = false := rfl
    rw [l1]
    have l2 : (⟨1, dist v.2 g.2⟩ : Frac).lt ⟨1, dist w.2 g.2⟩ = true := by
      simp [Frac.lt, dist]; omega
    simp [scoreLt, l2]

/-- C52. With the same ABI, of two supported manylinux tags the one for the newer glibc is preferred (for
minor versions, when its major version is that of the system). -/
theorem newer_manylinux_preferred (s : Sys) (hr : Regular s) (i j : Interp) (a : Text) (p q : Plat)
    (h1 : (single i a p).Ok) (h2 : (single j a q).Ok) (x y : Score) (g v w : Nat × Nat) (hg : s.glibc = some g)
    (hv : glibcOf p = some v) (hw : glibcOf q = some w)
    (hlt : v.1 < w.1 ∨ (v.1 = w.1 ∧ w.1 = g.1 ∧ v.2 < w.2))
    (hx : compatibilityScore s (single i a p).text = some x) (hy : compatibilityScore s (single j a q).text = some y) :
    scoreLt x y = true := by
  obtain ⟨c, hm, hc⟩ := ctx_ok s hr
  obtain ⟨n1, q1, e1, f1, rfl⟩ := single_parts s hr i a p h1 x hx c hm
  obtain ⟨n2, q2, e2, f2, rfl⟩ := single_parts s hr j a q h2 y hy c hm
  rw [e1] at e2; cases e2
  obtain ⟨rfl, g1, _⟩ := many_plt s hr c hc p v g hv hg q1 f1
  obtain ⟨rfl, g2, _⟩ := many_plt s hr c hc q w g hw hg q2 f2
  have := vd_lt v w g g1 g2 hlt (.whole 1) [.whole (if i.name = t!"py" then 0 else 1), (vdscore s.version (i.ver.read s.version.2)).2]
    [.whole (if j.name = t!"py" then 0 else 1), (vdscore s.version (j.ver.read s.version.2)).2]
  rw [scoreLt, Frac.lt_irrefl]
  simp only [Bool.false_eq_true, if_false]
  exact this

/-- C52. With the same ABI and platform, a tag for the own implementation is preferred to a `py` tag. -/
theorem own_implementation_preferred (s : Sys) (hr : Regular s) (i j : Interp) (a : Text) (p : Plat)
    (h1 : (single i a p).Ok) (h2 : (single j a p).Ok) (x y : Score) (hi : i.name = t!"py") (hj : j.name ≠ t!"py")
    (hx : compatibilityScore s (single i a p).text = some x) (hy : compatibilityScore s (single j a p).text = some y) :
    scoreLt x y = true := by
  obtain ⟨c, hm, hc⟩ := ctx_ok s hr
  obtain ⟨n1, q1, e1, f1, rfl⟩ := single_parts s hr i a p h1 x hx c hm
  obtain ⟨n2, q2, e2, f2, rfl⟩ := single_parts s hr j a p h2 y hy c hm
  rw [e1] at e2; cases e2
  rw [f1] at f2; cases f2
  have l : (Frac.whole 0).lt (Frac.whole 1) = true := rfl
  simp only [scoreLt, Frac.lt_irrefl, hi, hj, if_true, if_false, Bool.false_eq_true, l]

/-- C52. With the same ABI, platform and kind of interpreter tag, the tag for the newer minor version is
preferred. -/
theorem closer_version_preferred (s : Sys) (hr : Regular s) (i j : Interp) (a : Text) (p : Plat)
    (h1 : (single i a p).Ok) (h2 : (single j a p).Ok) (x y : Score) (hij : i.name = j.name) (b m n : Nat)
    (hi : i.ver = .glued b m ∨ i.ver = .under b m) (hj : j.ver = .glued b n ∨ j.ver = .under b n ∨ (j.ver = .major b ∧ n = s.version.2))
    (hmn : m < n)
    (hx : compatibilityScore s (single i a p).text = some x) (hy : compatibilityScore s (single j a p).text = some y) :
    scoreLt x y = true := by
  obtain ⟨c, hm, hc⟩ := ctx_ok s hr
  obtain ⟨n1, q1, e1, f1, rfl⟩ := single_parts s hr i a p h1 x hx c hm
  obtain ⟨n2, q2, e2, f2, rfl⟩ := single_parts s hr j a p h2 y hy c hm
  rw [e1] at e2; cases e2
  rw [f1] at f2; cases f2
  obtain ⟨_, _, _, _, _, _, si⟩ := (scored_iff_supported_partial s hr _ h1).mp ⟨_, hx⟩
  obtain ⟨i', hi', a', ha', p', hp', ⟨_, si⟩, _⟩ := (scored_iff_supported_partial s hr _ h1).mp ⟨_, hx⟩
  obtain ⟨j', hj', a'', ha'', p'', hp'', ⟨_, sj⟩, _⟩ := (scored_iff_supported_partial s hr _ h2).mp ⟨_, hy⟩
  simp only [single, List.mem_singleton] at hi' hj'
  subst hi'; subst hj'
  have ri : i'.ver.read s.version.2 = (b, m) := by
    rcases hi with h | h <;> rw [h] <;> rfl
  have rj : j'.ver.read s.version.2 = (b, n) := by
    rcases hj with h | h | ⟨h, hn⟩
    · rw [h]; rfl
    · rw [h]; rfl
    · rw [h, hn]; rfl
  have fi : s.version.1 = b ∧ m ≤ s.version.2 := by
    rcases hi with h | h <;> rw [h] at si <;> exact ⟨si.1.symm, si.2⟩
  have fj : n ≤ s.version.2 := by
    rcases hj with h | h | ⟨h, hn⟩
    · rw [h] at sj; exact sj.2
    · rw [h] at sj; exact sj.2
    · omega
  rw [ri, rj, hij]
  have ei : (vdscore s.version (b, m)).2 = ⟨1, dist s.version.2 m⟩ := by simp [vdscore, fi.1]
  have ej : (vdscore s.version (b, n)).2 = ⟨1, dist s.version.2 n⟩ := by simp [vdscore, fi.1]
  have l : (⟨1, dist s.version.2 m⟩ : Frac).lt ⟨1, dist s.version.2 n⟩ = true := by
    simp [Frac.lt, dist]; omega
  rw [ei, ej]
  simp only [scoreLt, Frac.lt_irrefl, if_true, if_false, Bool.false_eq_true, l]

/-! Examples. -/
namespace Example

/-- CPython 3.10 on x86_64 linux with glibc 2.31. -/
def linux310 : Sys where
  implName := t!"cpython"
  version := (3, 10)
  pyDebug := some false
  refcount := false
  debugExt := false
  pymalloc := some true
  unicodeSize := none
  wideUnicode := true
  soabi := some t!"cpython-310-x86_64-linux-gnu"
  system := t!"Linux"
  platform := t!"linux-x86_64"
  is32 := false
  macVersion := (0, 0)
  macCpu := []
  elf := some ⟨false, true, 62, 0⟩
  glibc := some (2, 31)
  musl := none

theorem on_linux : OnLinux linux310 .x86_64 := ⟨rfl, rfl, by intro h; cases h⟩

theorem linux310_regular : Regular linux310 where
  name := ⟨by decide, by decide⟩
  linux _ := ⟨⟨.x86_64, on_linux⟩, ⟨_, rfl⟩, rfl⟩
  platform h := absurd rfl h

/-- `cp39.cp310-abi3.cp310-manylinux_2_17_x86_64.manylinux2014_x86_64` -/
def wheel : TagSet where
  interps := [⟨t!"cp", .glued 3 9⟩, ⟨t!"cp", .glued 3 10⟩]
  abis := [t!"abi3", t!"cp310"]
  plats := [.manylinux 2 17 .x86_64, .manylinux2014 .x86_64]

theorem wheel_ok : wheel.Ok where
  interps := ⟨by decide, by
    intro i hi
    simp [wheel] at hi
    rcases hi with rfl | rfl <;> exact ⟨⟨by decide, by decide⟩, by show 3 < 10; decide⟩⟩
  abis := ⟨by decide, by
    intro a ha
    simp [wheel] at ha
    rcases ha with rfl | rfl <;> (unfold Plain; decide)⟩
  plats := ⟨by decide, by
    intro p hp
    simp [wheel] at hp
    rcases hp with rfl | rfl <;> trivial⟩

theorem glibc_ok : Glibc linux310 .x86_64 (2, 17) := ⟨_, _, rfl, trivial, rfl, .inr ⟨rfl, by decide⟩⟩

theorem native : NativeAbi linux310 t!"cp310" := by rw [native_iff]; decide

theorem wheel_supported : Supports linux310 ⟨t!"cp", .glued 3 10⟩ t!"cp310" (.manylinux 2 17 .x86_64) :=
  ⟨⟨.inr (by decide), rfl, by decide⟩, ⟨3, .inl ⟨.inl rfl, native⟩⟩, on_linux, glibc_ok⟩

example : ∃ x, compatibilityScore linux310 wheel.text = some x :=
  (scored_iff_supported_partial _ linux310_regular _ wheel_ok).mpr
    ⟨⟨t!"cp", .glued 3 10⟩, by simp [wheel], t!"cp310", by simp [wheel], .manylinux 2 17 .x86_64, by simp [wheel], wheel_supported⟩

/-- the text and its score -/
example : wheel.text = t!"cp39.cp310-abi3.cp310-manylinux_2_17_x86_64.manylinux2014_x86_64" ∧
    compatibilityScore linux310 wheel.text = some [⟨2, 0⟩, ⟨1, 0⟩, ⟨1, 0⟩, ⟨1, 14⟩, ⟨1, 0⟩, ⟨1, 0⟩] := by
  decide +kernel

/-- all the parts of the examples below -/
def parts : TagSet where
  interps := [⟨t!"cp", .glued 3 9⟩, ⟨t!"cp", .glued 3 10⟩, ⟨t!"py", .major 3⟩]
  abis := [t!"abi3", t!"cp310", t!"none"]
  plats := [.manylinux 2 17 .x86_64, .manylinux 2 5 .x86_64, .any]

theorem parts_ok : parts.Ok where
  interps := ⟨by decide, by
    intro i hi
    simp [parts] at hi
    rcases hi with rfl | rfl | rfl
    · exact ⟨⟨by decide, by decide⟩, by show 3 < 10; decide⟩
    · exact ⟨⟨by decide, by decide⟩, by show 3 < 10; decide⟩
    · exact ⟨⟨by decide, by decide⟩, by show 3 < 10; decide⟩⟩
  abis := ⟨by decide, by
    intro a ha
    simp [parts] at ha
    rcases ha with rfl | rfl | rfl <;> (unfold Plain; decide)⟩
  plats := ⟨by decide, by
    intro p hp
    simp [parts] at hp
    rcases hp with rfl | rfl | rfl <;> trivial⟩

theorem one_ok {i a p} (hi : i ∈ parts.interps) (ha : a ∈ parts.abis) (hp : p ∈ parts.plats) : (single i a p).Ok :=
  single_ok parts_ok hi ha hp

/-- the own ABI is preferred to the stable one -/
example : scoreLt [⟨1, 0⟩, ⟨1, 0⟩, ⟨1, 0⟩, ⟨1, 14⟩, ⟨1, 0⟩, ⟨1, 0⟩] [⟨2, 0⟩, ⟨1, 0⟩, ⟨1, 0⟩, ⟨1, 26⟩, ⟨1, 0⟩, ⟨1, 0⟩] = true :=
  better_abi_preferred linux310 linux310_regular ⟨t!"cp", .glued 3 10⟩ ⟨t!"cp", .glued 3 10⟩ t!"abi3" t!"cp310"
    (.manylinux 2 17 .x86_64) (.manylinux 2 5 .x86_64)
    (one_ok (by simp [parts]) (by simp [parts]) (by simp [parts])) (one_ok (by simp [parts]) (by simp [parts]) (by simp [parts])) _ _
    (by decide +kernel) (by decide +kernel) 1 3 ⟨.inl rfl, .inr ⟨rfl, by decide⟩, rfl⟩ (.inl ⟨.inl rfl, native⟩) (by decide) (by decide)

/-- a manylinux wheel is preferred to one for every platform -/
example : scoreLt [⟨0, 0⟩, ⟨0, 0⟩, ⟨0, 0⟩, ⟨0, 0⟩, ⟨1, 0⟩, ⟨1, 0⟩] [⟨0, 0⟩, ⟨1, 0⟩, ⟨1, 0⟩, ⟨1, 26⟩, ⟨0, 0⟩, ⟨1, 0⟩] = true :=
  specific_platform_preferred linux310 linux310_regular ⟨t!"cp", .glued 3 10⟩ ⟨t!"py", .major 3⟩ t!"none" (.manylinux 2 5 .x86_64)
    (one_ok (by simp [parts]) (by simp [parts]) (by simp [parts])) (one_ok (by simp [parts]) (by simp [parts]) (by simp [parts])) (by intro h; cases h) _ _
    (by decide +kernel) (by decide +kernel)

/-- manylinux_2_17 is preferred to manylinux_2_5 -/
example : scoreLt [⟨2, 0⟩, ⟨1, 0⟩, ⟨1, 0⟩, ⟨1, 26⟩, ⟨1, 0⟩, ⟨1, 0⟩] [⟨2, 0⟩, ⟨1, 0⟩, ⟨1, 0⟩, ⟨1, 14⟩, ⟨0, 0⟩, ⟨1, 0⟩] = true :=
  newer_manylinux_preferred linux310 linux310_regular ⟨t!"cp", .glued 3 10⟩ ⟨t!"py", .major 3⟩ t!"cp310" (.manylinux 2 5 .x86_64) (.manylinux 2 17 .x86_64)
    (one_ok (by simp [parts]) (by simp [parts]) (by simp [parts])) (one_ok (by simp [parts]) (by simp [parts]) (by simp [parts])) _ _
    (2, 31) (2, 5) (2, 17) rfl rfl rfl (.inr ⟨rfl, rfl, by decide⟩) (by decide +kernel) (by decide +kernel)

/-- cp39-none-any is preferred to py3-none-any, cp310-none-any to cp39-none-any -/
example : scoreLt [⟨0, 0⟩, ⟨0, 0⟩, ⟨0, 0⟩, ⟨0, 0⟩, ⟨0, 0⟩, ⟨1, 0⟩] [⟨0, 0⟩, ⟨0, 0⟩, ⟨0, 0⟩, ⟨0, 0⟩, ⟨1, 0⟩, ⟨1, 1⟩] = true ∧
    scoreLt [⟨0, 0⟩, ⟨0, 0⟩, ⟨0, 0⟩, ⟨0, 0⟩, ⟨1, 0⟩, ⟨1, 1⟩] [⟨0, 0⟩, ⟨0, 0⟩, ⟨0, 0⟩, ⟨0, 0⟩, ⟨1, 0⟩, ⟨1, 0⟩] = true :=
  ⟨own_implementation_preferred linux310 linux310_regular ⟨t!"py", .major 3⟩ ⟨t!"cp", .glued 3 9⟩ t!"none" .any
    (one_ok (by simp [parts]) (by simp [parts]) (by simp [parts])) (one_ok (by simp [parts]) (by simp [parts]) (by simp [parts])) _ _
    rfl (by decide) (by decide +kernel) (by decide +kernel),
   closer_version_preferred linux310 linux310_regular ⟨t!"cp", .glued 3 9⟩ ⟨t!"cp", .glued 3 10⟩ t!"none" .any
    (one_ok (by simp [parts]) (by simp [parts]) (by simp [parts])) (one_ok (by simp [parts]) (by simp [parts]) (by simp [parts])) _ _
    rfl 3 9 10 (.inl rfl) (.inl rfl) (by decide) (by decide +kernel) (by decide +kernel)⟩

/-- Mac with an Intel processor -/
def mac : Sys := { linux310 with system := t!"Darwin", platform := t!"macosx-10.9-x86_64", macVersion := (11, 2), macCpu := t!"x86_64", elf := none, glibc := none }

theorem mac_regular : Regular mac where
  name := ⟨by decide, by decide⟩
  linux h := absurd h (by decide)
  platform _ := ⟨by intro a; cases a <;> decide, by decide, by decide⟩

example : compatibilityScore mac t!"cp310-cp310-macosx_10_15_universal2" = some [⟨2, 0⟩, ⟨2, 0⟩, ⟨1, 1⟩, ⟨0, 0⟩, ⟨1, 0⟩, ⟨1, 0⟩] := by
  decide +kernel

end Example

/-! What goes wrong. -/

/-- the same interpreter on a musl system, for example Alpine linux -/
def Example.alpine : Sys := { Example.linux310 with glibc := none, musl := some (1, 2) }

/-- C52 fails on musl systems: no wheel has a score, not even one for every platform. -/
theorem musl_violated :
    (∀ t, compatibilityScore Example.alpine t = none) ∧
    Supports Example.alpine ⟨t!"py", .major 3⟩ t!"none" .any ∧
    Supports Example.alpine ⟨t!"py", .major 3⟩ t!"none" (.musllinux 1 1 .x86_64) := by
  refine ⟨?_, ⟨⟨.inl rfl, rfl⟩, ⟨0, rfl⟩, trivial⟩, ⟨.inl rfl, rfl⟩, ⟨0, rfl⟩, ⟨rfl, rfl, by intro h; cases h⟩, _, rfl, rfl, by decide⟩
  intro t
  unfold compatibilityScore
  have : mkCtx Example.alpine = .error () := rfl
  split
  · rw [this]
  · rfl

/-- C52 fails for sets with a part of another form: one such part, and no tag of the set counts. -/
theorem odd_part_violated :
    compatibilityScore Example.linux310 t!"py3-none-any" ≠ none ∧
    compatibilityScore Example.linux310 t!"py3_.py3-none-any" = none ∧
    compatibilityScore Example.linux310 t!"py3-none-any.manylinux_2_x_x86_64" = none := by
  decide +kernel

/-- C52 fails for a 32 bit interpreter on a 64 bit system: it takes wheels with 64 bit code. -/
theorem width_violated :
    compatibilityScore { Example.linux310 with is32 := true, elf := some ⟨true, true, 3, 0⟩ } t!"cp310-cp310-linux_x86_64" ≠ none ∧
    compatibilityScore { Example.linux310 with is32 := true, elf := some ⟨true, true, 3, 0⟩ } t!"cp310-cp310-linux_i686" ≠ none := by
  decide +kernel

/-- C52 fails for platform names nothing is known about: they count as manylinux ones. -/
theorem unknown_platform_violated :
    compatibilityScore Example.linux310 t!"cp310-cp310-manylinux_2_17_android_x86_64" ≠ none ∧
    compatibilityScore Example.linux310 t!"cp310-cp310-manylinuxfoo_2_17_x86_64" ≠ none := by
  decide +kernel

/-! Wheel names. -/

theorem splitOn_sep (c : Char) (t : Text) : ∀ x ∈ splitOn c t, c ∉ x := by
  induction t with
  | nil => simp [splitOn]
  | cons y ys ih =>
    intro x hx
    simp only [splitOn] at hx
    split at hx
    · rcases List.mem_cons.mp hx with rfl | hx
      · simp
      · exact ih x hx
    · rename_i hy
      split at hx
      · simp only [List.mem_singleton] at hx
        subst hx
        simp [Ne.symm hy]
      · rename_i z zs e
        rcases List.mem_cons.mp hx with rfl | hx
        · simp only [List.mem_cons, not_or]
          exact ⟨Ne.symm hy, ih z (by rw [e]; simp)⟩
        · exact ih x (by rw [e]; simp [hx])

theorem joinDash_split : ∀ (ts : List Text), ts ≠ [] → (∀ t ∈ ts, '-' ∉ t) → splitOn '-' (joinDash ts) = ts
  | [], h, _ => absurd rfl h
  | [t], _, h => splitOn_one _ _ (h t (by simp))
  | t :: u :: ts, _, h => by
    simp only [joinDash]
    rw [splitOn_step _ _ _ (h t (by simp)),
      joinDash_split (u :: ts) (by simp) (fun x hx => h x (List.mem_cons_of_mem _ hx))]

/-- C52. The tag set is taken from the end of the wheel's name, whatever is before it (name, version,
possibly a build tag). -/
theorem tags_of_wheel_name (front : List Text) (hf : ∀ t ∈ front, '-' ∉ t) (t : TagSet) (h : t.Ok) :
    tagsOf (joinDash (front ++ [joinDots (t.interps.map Interp.text), joinDots t.abis, joinDots (t.plats.map Plat.text)]))
      = t.text := by
  obtain ⟨e1, e2, e3, e4⟩ := tagset_split t h
  have hd : ∀ x ∈ splitOn '-' t.text, '-' ∉ x := by
    intro x hx
    exact splitOn_sep '-' _ x hx
  rw [e1] at hd
  unfold tagsOf
  rw [joinDash_split _ (by simp) (by
    intro x hx
    rcases List.mem_append.mp hx with hx | hx
    · exact hf x hx
    · exact hd x hx)]
  simp only [List.length_append, List.length_cons, List.length_nil, Nat.zero_add, Nat.add_sub_cancel]
  rw [List.drop_left]
  simp [joinDash, TagSet.text]

/-- `numpy-1.26.0-1-cp39.cp310-abi3.cp310-manylinux_2_17_x86_64.manylinux2014_x86_64` -/
example : tagsOf (joinDash ([t!"numpy", t!"1.26.0", t!"1"] ++
    [joinDots (Example.wheel.interps.map Interp.text), joinDots Example.wheel.abis, joinDots (Example.wheel.plats.map Plat.text)]))
      = Example.wheel.text :=
  tags_of_wheel_name _ (by decide) _ Example.wheel_ok

end Pkm.Tags
