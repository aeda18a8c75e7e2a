import Verif.Projects.Releases
import Verif.VersionText.Props
/-
What is published (C76) and the attached environment of a project (C77).
-/
set_option linter.unusedVariables false
set_option linter.unusedSimpArgs false
namespace Pkm

/-! ### specification -/
namespace Spec
open Pkm.Releases
variable {S C : Type}

/-- The distributions a release has: a library is released as a source distribution and as a wheel, an application as a source
distribution. -/
def releaseKinds (c : DistCfg) : List Kind :=
  match c.none, c.application, c.capp with
  | true, _, _ => []
  | false, true, _ => [.sdist]
  | false, false, true => [.appSdist]
  | false, false, false => [.sdist, .wheel]

/-- The file name of a distribution of a version. -/
def releaseFile (m : Maker S C) (v : SV) : Kind → Text
  | .wheel => m.wheelPrefix ++ t!"-" ++ v.show ++ t!"-" ++ m.wheelTag ++ t!".whl"
  | _ => m.sdistPrefix ++ t!"-" ++ v.show ++ t!".tar.gz"

/-- What was sent is the release of the version made from the sources: each distribution once, under the name and with the
metadata of the version, and nothing else. -/
def IsRelease (m : Maker S C) (c : DistCfg) (v : SV) (s : S) (out : Sent C) : Prop :=
  out.Nodup ∧
  (∀ k ∈ releaseKinds c, ∃ x, m.make k v s = some x ∧ (v, releaseFile m v k, x) ∈ out) ∧
  ∀ u n x, (u, n, x) ∈ out → u = v ∧ ∃ k ∈ releaseKinds c, n = releaseFile m v k ∧ m.make k v s = some x

/-- There is no build of the version in the configuration. -/
def Unbuilt (p : Prj S C) : Prop := p.dist.get p.conf.show = none

/-- A careful history: every command succeeds, the sources are only edited while the version is not built, and a version is not
bumped to one that is built already. -/
def CarefulRun (m : Maker S C) (c : DistCfg) : Prj S C → List (Cmd S) → Prop
  | _, [] => True
  | p, x :: xs => (step m c p x).2.1 = true ∧
      (match x with
        | .edit _ => Unbuilt p
        | .vbump _ => Unbuilt (step m c p x).1
        | _ => True) ∧
      CarefulRun m c (step m c p x).1 xs

end Spec

namespace Releases
open Spec
variable {S C : Type}

/-! ### lemmas -/

theorem get_filter_wf {K V : Type} [DecidableEq K] (d : Dict K V) (p : K × V → Bool) (k : K) (hw : d.Wf) :
    Dict.get (d.filter p) k = (d.get k).filter (fun v => p (k, v)) := by
  induction d with
  | nil => simp [Dict.get]
  | cons x d ih =>
    obtain ⟨a, v⟩ := x
    simp only [Dict.Wf, Dict.keys, List.map_cons, List.nodup_cons] at hw
    have ih := ih hw.2
    by_cases hk : a = k
    · subst hk
      by_cases hp : p (a, v) = true
      · simp [List.filter_cons, hp, Dict.get, Option.filter]
      · have : Dict.get d a = none := (Dict.get_none_iff d a).2 hw.1
        rw [List.filter_cons, if_neg hp, ih, this]
        simp [Dict.get, hp, Option.filter]
    · by_cases hp : p (a, v) = true
      · rw [List.filter_cons, if_pos hp]
        simp only [Dict.get, if_neg hk, ih]
      · rw [List.filter_cons, if_neg hp]
        simp only [Dict.get, if_neg hk, ih]

theorem wf_filter {K V : Type} [DecidableEq K] (d : Dict K V) (p : K × V → Bool) (hw : d.Wf) :
    Dict.Wf (d.filter p) := by
  unfold Dict.Wf Dict.keys at *
  exact hw.sublist (List.filter_sublist.map _)

theorem builders_kinds (c : DistCfg) : builders c = releaseKinds c := by
  obtain ⟨a, b, d⟩ := c
  cases a <;> cases b <;> cases d <;> rfl

theorem fileName_release (m : Maker S C) (p : Prj S C) (k : Kind) :
    fileName m (load p) k = releaseFile m p.conf k := by
  cases k <;> simp [fileName, releaseFile, Maker.wheelName, Maker.sdistName, load, List.append_assoc]

theorem names_differ (m : Maker S C) (v : SV) : releaseFile m v .sdist ≠ releaseFile m v .wheel := by
  intro h
  have h1 : (releaseFile m v .sdist).getLast? = some 'z' := by
    simp only [releaseFile]; rw [List.getLast?_append]; rfl
  have h2 : (releaseFile m v .wheel).getLast? = some 'l' := by
    simp only [releaseFile]; rw [List.getLast?_append]; rfl
  rw [h, h2] at h1
  simp at h1

theorem names_injective (m : Maker S C) (v : SV) (c : DistCfg) (j k : Kind) (hj : j ∈ releaseKinds c)
    (hk : k ∈ releaseKinds c) (h : releaseFile m v j = releaseFile m v k) : j = k := by
  have hn := names_differ m v
  obtain ⟨a, b, d⟩ := c
  cases a <;> cases b <;> cases d <;> simp [releaseKinds] at hj hk <;>
    (try (rcases hj with rfl | rfl)) <;> (try (rcases hk with rfl | rfl)) <;> (try subst hj) <;> (try subst hk) <;>
    first | rfl | exact absurd h hn | exact absurd h.symm hn

/-- The files of a complete build. -/
structure Complete (m : Maker S C) (c : DistCfg) (v : SV) (s : S) (fs : Dict Text (Option C)) : Prop where
  wf : fs.Wf
  all : ∀ k ∈ releaseKinds c, ∃ x, m.make k v s = some x ∧ fs.get (releaseFile m v k) = some (some x)
  only : ∀ n y, fs.get n = some y → ∃ k ∈ releaseKinds c, ∃ x, n = releaseFile m v k ∧ m.make k v s = some x ∧ y = some x

/-- What a careful history keeps. -/
structure Good (m : Maker S C) (c : DistCfg) (p : Prj S C) : Prop where
  wf : p.dist.Wf
  cur : ∀ e, p.dist.get p.conf.show = some e → ∃ fs, e = .dir fs ∧ Complete m c p.conf p.source fs

theorem complete_release {m : Maker S C} {c : DistCfg} {v : SV} {s : S} {fs : Dict Text (Option C)}
    (h : Complete m c v s fs) : IsRelease m c v s (sent v fs) := by
  refine ⟨?_, ?_, ?_⟩
  · have hw := h.wf
    unfold sent
    unfold Dict.Wf Dict.keys at hw
    clear h
    induction fs with
    | nil => exact List.nodup_nil
    | cons a d ih =>
      obtain ⟨n, y⟩ := a
      simp only [List.map_cons, List.nodup_cons] at hw
      cases y with
      | none => simpa [List.filterMap_cons] using ih hw.2
      | some x =>
        simp only [List.filterMap_cons, Option.map_some, List.nodup_cons]
        refine ⟨?_, ih hw.2⟩
        intro hm
        obtain ⟨⟨n', y'⟩, hmem, he⟩ := List.mem_filterMap.1 hm
        cases y' with
        | none => simp at he
        | some x' =>
          simp at he
          exact hw.1 (he.1 ▸ List.mem_map_of_mem (f := (·.1)) hmem)
  · intro k hk
    obtain ⟨x, h1, h2⟩ := h.all k hk
    exact ⟨x, h1, List.mem_filterMap.2 ⟨(_, some x), Dict.get_mem _ _ _ h2, rfl⟩⟩
  · intro u n x hm
    obtain ⟨⟨n', y'⟩, hmem, he⟩ := List.mem_filterMap.1 hm
    cases y' with
    | none => simp at he
    | some x' =>
      simp at he
      obtain ⟨e1, e2, e3⟩ := he
      subst e1 e2 e3
      obtain ⟨k, hk, x, g1, g2, g3⟩ := h.only _ _ (Dict.mem_get _ _ _ h.wf hmem)
      cases g3
      exact ⟨rfl, k, hk, g1, g2⟩

/-- What the files of a directory become. -/
def built (m : Maker S C) (v : SV) (s : S) : List Kind → Dict Text (Option C) → Dict Text (Option C)
  | [], fs => fs
  | k :: ks, fs => built m v s ks (fs.put (releaseFile m v k) (m.make k v s))

theorem buildAll_ok (m : Maker S C) (ks : List Kind) (p q : Prj S C) (hl : p.loaded = p.conf)
    (h : buildAll m ks p = (q, true)) (hks : ks ≠ []) :
    (∀ k ∈ ks, (m.make k p.conf p.source).isSome = true) ∧ blocked (p.dist.get p.conf.show) = false ∧
    q.conf = p.conf ∧ q.loaded = p.loaded ∧ q.source = p.source ∧
    q.dist.get p.conf.show = some (.dir (built m p.conf p.source ks (filesOf (p.dist.get p.conf.show)))) ∧
    (p.dist.Wf → q.dist.Wf) ∧ ∀ n, n ≠ p.conf.show → q.dist.get n = p.dist.get n := by
  induction ks generalizing p with
  | nil => exact absurd rfl hks
  | cons k ks ih =>
    have hload : p = load p := by cases p; simp_all [load]
    have hfile := fileName_release m p k
    rw [← hload] at hfile
    have htar : target p = p.conf.show := by rw [target, hl]
    simp only [buildAll, buildOne, htar, hfile] at h
    cases hb : blocked (p.dist.get p.conf.show) with
    | true => simp [hb] at h
    | false =>
      cases hm : m.make k p.conf p.source with
      | none => simp [hb, hm] at h
      | some x =>
        simp only [hb, hm, Bool.false_eq_true, if_false] at h
        by_cases hk : ks = []
        · subst hk
          simp only [buildAll, Prod.mk.injEq, and_true] at h
          subst h
          refine ⟨by simp [hm], rfl, rfl, rfl, rfl, ?_, ?_, ?_⟩
          · simp [Prj.withFiles, Dict.get_put, htar, built, hm]
          · exact fun hw => Dict.wf_put _ _ _ hw
          · intro n hn
            simp [Prj.withFiles, Dict.get_put, htar, Ne.symm hn]
        · obtain ⟨g1, g2, g3, g4, g5, g6, g7, g8⟩ := ih
            (p.withFiles ((filesOf (p.dist.get p.conf.show)).put (releaseFile m p.conf k) (some x))) hl h hk
          refine ⟨?_, rfl, g3, g4, g5, ?_, ?_, ?_⟩
          · intro j hj
            rcases List.mem_cons.1 hj with rfl | hj
            · simp [hm]
            · exact g1 j hj
          · rw [show p.conf.show = (p.withFiles ((filesOf (p.dist.get p.conf.show)).put (releaseFile m p.conf k)
              (some x))).conf.show from rfl, g6]
            simp [Prj.withFiles, Dict.get_put, htar, built, filesOf, hm]
          · exact fun hw => g7 (Dict.wf_put _ _ _ hw)
          · intro n hn
            rw [g8 n hn]
            simp [Prj.withFiles, Dict.get_put, htar, Ne.symm hn]

theorem built_complete (m : Maker S C) (c : DistCfg) (v : SV) (s : S) (fs : Dict Text (Option C))
    (hmk : ∀ k ∈ releaseKinds c, (m.make k v s).isSome = true)
    (h : fs = [] ∨ Complete m c v s fs) : Complete m c v s (built m v s (releaseKinds c) fs) := by
  have hmk' : ∀ k ∈ releaseKinds c, ∃ x, m.make k v s = some x := fun k hk => Option.isSome_iff_exists.1 (hmk k hk)
  have hwf : fs.Wf := by
    rcases h with rfl | h
    · exact List.nodup_nil
    · exact h.wf
  have honly : ∀ n y, fs.get n = some y →
      ∃ k ∈ releaseKinds c, ∃ x, n = releaseFile m v k ∧ m.make k v s = some x ∧ y = some x := by
    rcases h with rfl | h
    · intro n y hn; simp [Dict.get] at hn
    · exact h.only
  have key : ∀ (ks : List Kind) (gs : Dict Text (Option C)), (∀ k ∈ ks, k ∈ releaseKinds c) → gs.Wf →
      (∀ n y, gs.get n = some y →
        ∃ k ∈ releaseKinds c, ∃ x, n = releaseFile m v k ∧ m.make k v s = some x ∧ y = some x) →
      (built m v s ks gs).Wf ∧ ∀ n y, (built m v s ks gs).get n = some y →
        ∃ k ∈ releaseKinds c, ∃ x, n = releaseFile m v k ∧ m.make k v s = some x ∧ y = some x := by
    intro ks
    induction ks with
    | nil => exact fun gs _ h1 h2 => ⟨h1, h2⟩
    | cons k ks ih =>
      intro gs hk h1 h2
      refine ih _ (fun j hj => hk j (List.mem_cons_of_mem _ hj)) (Dict.wf_put _ _ _ h1) ?_
      intro n y hn
      rw [Dict.get_put] at hn
      split at hn
      · rename_i he
        obtain ⟨x, hx⟩ := hmk' k (hk k List.mem_cons_self)
        exact ⟨k, hk k List.mem_cons_self, x, he.symm, hx, by simpa [hx] using hn.symm⟩
      · exact h2 n y hn
  obtain ⟨a1, a2⟩ := key (releaseKinds c) fs (fun _ h => h) hwf honly
  refine ⟨a1, ?_, a2⟩
  intro k hk
  obtain ⟨x, hx⟩ := hmk' k hk
  refine ⟨x, hx, ?_⟩
  obtain ⟨a, b, d⟩ := c
  have hn := names_differ m v
  cases a <;> cases b <;> cases d <;> simp [releaseKinds] at hk <;>
    (try (rcases hk with rfl | rfl)) <;> (try subst hk) <;>
    simp [releaseKinds, built, Dict.get_put, hx, hn, Ne.symm hn]

/-- A successful build. -/
theorem build_good {m : Maker S C} {c : DistCfg} {p q : Prj S C} (hg : Good m c p) (h : build m c (load p) = (q, true)) :
    Good m c q ∧ q.conf = p.conf ∧ q.source = p.source ∧
      (releaseKinds c ≠ [] → ∃ fs, q.dist.get q.conf.show = some (.dir fs)) := by
  have hgl : Good m c (load p) := ⟨hg.wf, hg.cur⟩
  by_cases hk : releaseKinds c = []
  · simp only [build, builders_kinds, hk, buildAll, Prod.mk.injEq, and_true] at h
    subst h
    exact ⟨hgl, rfl, rfl, fun hh => absurd hk hh⟩
  · rw [build, builders_kinds] at h
    obtain ⟨g1, g2, g3, g4, g5, g6, g7, g8⟩ := buildAll_ok m (releaseKinds c) (load p) q rfl h hk
    refine ⟨⟨g7 hg.wf, ?_⟩, g3, g5, fun _ => ⟨_, g3 ▸ g6⟩⟩
    intro e he
    rw [g3, g6] at he
    cases he
    refine ⟨_, rfl, ?_⟩
    rw [g3, g5]
    refine built_complete m c _ _ _ g1 ?_
    cases hd : (load p).dist.get (load p).conf.show with
    | none => exact Or.inl rfl
    | some e =>
      obtain ⟨fs, rfl, hc⟩ := hgl.cur e hd
      exact Or.inr hc

theorem publish_good {m : Maker S C} {c : DistCfg} {p q : Prj S C} {out : Sent C} (hg : Good m c p)
    (h : publish m c (load p) = (q, some out)) :
    Good m c q ∧ q.conf = p.conf ∧ q.source = p.source ∧ IsRelease m c p.conf p.source out := by
  have up : ∀ r : Prj S C, Good m c r → r.loaded = r.conf → upload r = some out →
      IsRelease m c r.conf r.source out := by
    intro r hr hl hu
    rw [upload, target, hl] at hu
    split at hu
    · rename_i fs hd
      obtain ⟨fs', he, hc⟩ := hr.cur _ hd
      cases he
      cases hu
      exact complete_release hc
    · exact absurd hu (by simp)
  unfold publish at h
  split at h
  · simp only [Prod.mk.injEq] at h
    obtain ⟨rfl, hu⟩ := h
    have hgl : Good m c (load p) := ⟨hg.wf, hg.cur⟩
    exact ⟨hgl, rfl, rfl, up (load p) hgl rfl hu⟩
  · split at h
    · rename_i r hb
      simp only [Prod.mk.injEq] at h
      obtain ⟨rfl, hu⟩ := h
      obtain ⟨g1, g2, g3, g4⟩ := build_good hg hb
      have hl : r.loaded = r.conf := by
        by_cases hk : releaseKinds c = []
        · simp only [build, builders_kinds, hk, buildAll, Prod.mk.injEq, and_true] at hb
          subst hb; rfl
        · rw [build, builders_kinds] at hb
          obtain ⟨-, -, e3, e4, -⟩ := buildAll_ok m (releaseKinds c) (load p) r rfl hb hk
          rw [e3, e4]; rfl
      exact ⟨g1, g2, g3, g2 ▸ g3 ▸ up r g1 hl hu⟩
    · simp at h

theorem clean_good {m : Maker S C} {c : DistCfg} {p : Prj S C} (hg : Good m c p) (keep : List SV) :
    Good m c (cleanDist (load p) keep) := by
  refine ⟨wf_filter _ _ hg.wf, ?_⟩
  intro e he
  have hw : (load p).dist.Wf := hg.wf
  rw [show (cleanDist (load p) keep).dist = List.filter (keeps keep) (load p).dist from rfl,
    get_filter_wf _ _ _ hw, show (cleanDist (load p) keep).conf = p.conf from rfl] at he
  have : p.dist.get p.conf.show = some e := by
    cases hd : p.dist.get p.conf.show with
    | none => simp [load, hd] at he
    | some e' => simp [load, hd, Option.filter] at he; rw [he.2]
  exact hg.cur e this

theorem step_good {m : Maker S C} {c : DistCfg} {p : Prj S C} {x : Cmd S} (hg : Good m c p)
    (hx : match x with | .edit _ => Unbuilt p | .vbump _ => Unbuilt (step m c p x).1 | _ => True)
    (hs : (step m c p x).2.1 = true) : Good m c (step m c p x).1 := by
  cases x with
  | edit s =>
    refine ⟨hg.wf, ?_⟩
    intro e he
    simp only [step] at he hx
    rw [Unbuilt] at hx
    rw [hx] at he; simp at he
  | vbump y =>
    refine ⟨?_, ?_⟩
    · simp only [step]
      split
      · rename_i q hq
        simp only [bumpVersion, Option.map_eq_some_iff] at hq
        obtain ⟨v, -, rfl⟩ := hq
        exact hg.wf
      · exact hg.wf
    · intro e he
      simp only [Unbuilt] at hx
      rw [hx] at he; simp at he
  | build =>
    simp only [step] at hs ⊢
    exact (build_good hg (Prod.ext rfl hs)).1
  | clean all => exact clean_good hg _
  | publish =>
    simp only [step] at hs ⊢
    obtain ⟨out, ho⟩ := Option.isSome_iff_exists.1 hs
    exact (publish_good hg (Prod.ext rfl ho)).1

theorem run_good {m : Maker S C} {c : DistCfg} {p : Prj S C} {xs : List (Cmd S)} (hg : Good m c p)
    (hc : CarefulRun m c p xs) : Good m c (run m c p xs) := by
  induction xs generalizing p with
  | nil => exact hg
  | cons x xs ih => exact ih (step_good hg hc.2.1 hc.1) hc.2.2

/-! ### C76 -/

/-- After every careful history `publish` sends exactly the release of the version in the configuration, made from the sources
as they are now. What is missing: histories that are not careful, see `publish_stale_violated` and
`publish_failed_build_violated`. -/
theorem publish_careful_partial (m : Maker S C) (c : DistCfg) (p : Prj S C) (xs : List (Cmd S)) (out : Sent C)
    (hw : p.dist.Wf) (h0 : Unbuilt p) (hc : CarefulRun m c p xs)
    (h : (step m c (run m c p xs) .publish).2.2 = some out) :
    IsRelease m c (run m c p xs).conf (run m c p xs).source out := by
  have hg : Good m c p := ⟨hw, fun e he => by rw [h0] at he; simp at he⟩
  have hr := run_good hg hc
  exact (publish_good hr (Prod.ext rfl h)).2.2.2

/-- If the builders work and something is to be distributed, `publish` succeeds after every careful history. -/
theorem publish_succeeds (m : Maker S C) (c : DistCfg) (p : Prj S C) (xs : List (Cmd S))
    (hw : p.dist.Wf) (h0 : Unbuilt p) (hc : CarefulRun m c p xs) (hk : releaseKinds c ≠ [])
    (hb : ∀ k ∈ releaseKinds c, ∀ v s, (m.make k v s).isSome = true) :
    (step m c (run m c p xs) .publish).2.1 = true := by
  have hg : Good m c (run m c p xs) := run_good ⟨hw, fun e he => by rw [h0] at he; simp at he⟩ hc
  generalize run m c p xs = q at hg ⊢
  simp only [step]
  unfold publish
  split
  · rename_i hh
    obtain ⟨e, he⟩ := Option.isSome_iff_exists.1 hh
    obtain ⟨fs, rfl, -⟩ := hg.cur e he
    simp [upload, he]
  · rename_i hh
    have hn : (load q).dist.get (load q).conf.show = none := by
      simpa [Dict.has, target, load] using hh
    have key : ∀ (ks : List Kind) (r : Prj S C), (∀ k ∈ ks, k ∈ releaseKinds c) → blocked (r.dist.get (target r)) = false →
        ((buildAll m ks r).2 = true) := by
      intro ks
      induction ks with
      | nil => intro r _ _; rfl
      | cons k ks ih =>
        intro r hks hbl
        obtain ⟨x, hx⟩ := Option.isSome_iff_exists.1 (hb k (hks k List.mem_cons_self) r.conf r.source)
        simp only [buildAll, buildOne, hbl, hx, Bool.false_eq_true, if_false]
        refine ih _ (fun j hj => hks j (List.mem_cons_of_mem _ hj)) ?_
        simp [Prj.withFiles, target, Dict.get_put, blocked]
    have hok := key (releaseKinds c) (load q) (fun _ h => h) (by rw [target, show (load q).loaded = (load q).conf from rfl, hn]; rfl)
    rw [← builders_kinds] at hok
    have hbq : build m c (load q) = ((build m c (load q)).1, true) := Prod.ext rfl hok
    rw [hbq]
    rw [build, builders_kinds] at hbq
    obtain ⟨-, -, e3, e4, -, e6, -⟩ := buildAll_ok m (releaseKinds c) (load q) _ rfl hbq hk
    simp only [upload, target, build, builders_kinds]
    rw [e4, show (load q).loaded = (load q).conf from rfl, e6]
    rfl

/-- Whatever files are in the directory of the version are what is sent, whatever the sources are now. -/
theorem publish_stale_violated (m : Maker S C) (c : DistCfg) (p q : Prj S C) (s : S)
    (hb : step m c p .build = (q, true, none)) (h0 : Unbuilt p) (hk : releaseKinds c ≠ []) :
    ∃ out, (step m c (run m c p [.build, .edit s]) .publish).2.2 = some out ∧ IsRelease m c p.conf p.source out ∧
      (∀ k ∈ releaseKinds c, m.make k p.conf s ≠ m.make k p.conf p.source → ¬ IsRelease m c p.conf s out) := by
  have hbb : build m c (load p) = (q, true) := by
    simp only [step, Prod.mk.injEq, and_true] at hb
    exact Prod.ext hb.1 hb.2
  rw [build, builders_kinds] at hbb
  obtain ⟨g1, g2, g3, g4, g5, g6, g7, g8⟩ := buildAll_ok m (releaseKinds c) (load p) q rfl hbb hk
  have hq : (run m c p [.build, .edit s]) = { q with source := s } := by simp [run, step, build, builders_kinds, hbb]
  have h0' : (load p).dist.get (load p).conf.show = none := h0
  have hc := built_complete m c (load p).conf (load p).source (filesOf ((load p).dist.get (load p).conf.show)) g1
    (Or.inl (by rw [h0']; rfl))
  have e : q.dist.get q.conf.show = some (.dir (built m (load p).conf (load p).source (releaseKinds c)
    (filesOf ((load p).dist.get (load p).conf.show)))) := by rw [g3]; exact g6
  refine ⟨_, ?_, complete_release hc, ?_⟩
  rotate_left
  · intro k hk' hne hr
    obtain ⟨x, hx, hm⟩ := (complete_release hc).2.1 k hk'
    obtain ⟨-, k', hk2, hf, hx'⟩ := hr.2.2 _ _ _ hm
    have : k = k' := names_injective m p.conf c k k' hk' hk2 hf
    subst this
    exact hne (hx'.trans hx.symm)
  rw [hq]
  simp only [step, publish, load, target, Dict.has, e, Option.isSome_some, if_true, upload]
  rw [show q.conf = p.conf from g3]

/-- If the first builder raises, the next `publish` succeeds and sends nothing. -/
theorem publish_failed_build_violated (m : Maker S C) (p : Prj S C) (h0 : Unbuilt p)
    (hs : m.make .sdist p.conf p.source = none) :
    (step m {} p .publish).2.1 = false ∧
    (step m {} (run m {} p [.publish]) .publish).2 = (true, some []) := by
  have h0' : p.dist.get p.conf.show = none := h0
  constructor
  · simp [step, publish, load, target, Dict.has, h0', build, builders, buildAll, buildOne, blocked, hs]
  · simp [run, step, publish, load, target, Dict.has, h0', build, builders, buildAll, buildOne, blocked, hs, upload,
      Prj.withFiles, Dict.get_put, filesOf, sent]

/-- A program that bumps the version and publishes with the same object sends the files of the old version with the metadata
of the new one. -/
theorem publish_bumped_violated (p q : Prj S C) (x : Text) (fs : Dict Text (Option C)) (hl : p.loaded = p.conf)
    (hd : p.dist.get p.conf.show = some (.dir fs)) (hb : bumpVersion p x = some q) :
    upload q = some (sent q.conf fs) ∧ p.conf.bump x = some q.conf := by
  simp only [bumpVersion, Option.map_eq_some_iff] at hb
  obtain ⟨v, hv, rfl⟩ := hb
  exact ⟨by simp [upload, target, hl, hd], hv⟩

/-- `pkm clean dist` removes every file in `dist` and the directory of every other version, and leaves the directory of the
version in the configuration as it is. -/
theorem clean_dist (m : Maker S C) (c : DistCfg) (p : Prj S C) (hw : p.dist.Wf) (n : Text) :
    (step m c p (.clean false)).1.dist.get n =
      match p.dist.get n with
      | some (.dir fs) => if n = p.conf.show then some (.dir fs) else none
      | _ => none := by
  simp only [step, cleanDist]
  have hw' : (load p).dist.Wf := hw
  rw [get_filter_wf _ _ _ hw']
  cases h : p.dist.get n with
  | none => simp [load, h]
  | some e =>
    cases e with
    | file => simp [load, h, keeps, Option.filter]
    | dir fs =>
      by_cases hn : n = p.conf.show
      · simp [load, keeps, Option.filter, ← hn, h]
      · simp [load, h, keeps, hn, Ne.symm hn, Option.filter]

/-- Cleaning removes the directories of all other versions. -/
theorem clean_dist_versions (m : Maker S C) (c : DistCfg) (p : Prj S C) (hw : p.dist.Wf) (w : SV)
    (hp : Printable p.conf) (hq : Printable w) (hne : w ≠ p.conf) :
    (step m c p (.clean false)).1.dist.get w.show = none := by
  rw [clean_dist m c p hw]
  have : w.show ≠ p.conf.show := fun h => hne (version_text_injective w p.conf hq hp h)
  split
  · simp [this]
  · rfl

/-- `pkm clean dist --all` removes everything. -/
theorem clean_dist_all (m : Maker S C) (c : DistCfg) (p : Prj S C) :
    (step m c p (.clean true)).1.dist = [] := by
  simp only [step, cleanDist, if_true]
  apply List.filter_eq_nil_iff.2
  rintro ⟨n, e⟩ -
  cases e <;> simp [keeps]

/-! ### examples -/

def exMaker : Maker Nat Nat := ⟨t!"a", t!"a", t!"py3-none-any", fun k _ s => if s = 13 then none else some (match k with | .wheel => s + 1000 | _ => s)⟩
def v10 : SV := { release := [1, 0] }
def v100 : SV := { release := [1, 0, 0] }
def exPrj : Prj Nat Nat := ⟨7, v100, v100, []⟩

/-- Building, cleaning, publishing, bumping, editing and publishing again. -/
example : (step exMaker {} (run exMaker {} exPrj [.edit 8, .build, .clean false, .publish, .vbump t!"minor", .edit 9]) .publish).2.2
    = some [({ release := [1, 1, 0] }, t!"a-1.1.0.tar.gz", 9), ({ release := [1, 1, 0] }, t!"a-1.1.0-py3-none-any.whl", 1009)] := rfl

example : CarefulRun exMaker {} exPrj [.edit 8, .build, .clean false, .publish, .vbump t!"minor", .edit 9] := by
  simp only [CarefulRun]
  exact ⟨rfl, rfl, rfl, trivial, rfl, trivial, rfl, trivial, rfl, rfl, rfl, rfl, trivial⟩

/-- An edit after the build is not in what is published. -/
example : (step exMaker {} (run exMaker {} exPrj [.build, .edit 9]) .publish).2.2
    = some [(v100, t!"a-1.0.0.tar.gz", 7), (v100, t!"a-1.0.0-py3-none-any.whl", 1007)] := rfl

/-- A build that fails is published as nothing. -/
example : (step exMaker {} (run exMaker {} { exPrj with source := 13 } [.publish, .edit 9]) .publish).2 = (true, some []) := rfl

/-- Keeping version 1.0 removes the build of version 1.0.0, which is the same version. -/
theorem clean_dist_equal_violated :
    SV.eqv v10 v100 = true ∧
    (cleanDist (⟨7, v10, v10, [(v100.show, .dir [(t!"a", some 1)])]⟩ : Prj Nat Nat) [v10]).dist = [] := by
  constructor <;> rfl

end Releases
end Pkm
