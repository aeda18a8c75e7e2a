import Verif.Build.Hooks
import Verif.Build.DistsProps
import Verif.Config.HomeProps
/-
The build system hooks of pkm (C115).
-/
set_option linter.unusedVariables false
set_option linter.unusedSimpArgs false
namespace Pkm

/-! ### specification -/
namespace Spec
open Dists Hooks
variable {C S : Type}

/-- The kind of thing a hook has to make. -/
def RightKind : Hook → Made C S → Prop
  | .wheel, .wheel _ => True
  | .editable, .wheel _ => True
  | .sdist, .sdist _ => True
  | .prepareWheel, .info _ => True
  | .prepareEditable, .info _ => True
  | _, _ => False

/-- The end of the name it has to have. -/
def rightEnd : Hook → Text
  | .wheel | .editable => t!".whl"
  | .sdist => t!".tar.gz"
  | .prepareWheel | .prepareEditable => t!".dist-info"

end Spec

namespace Hooks
open Spec Dists Home
variable {C S : Type}

theorem writeInfo_get (is : Info C) (hn : (is.map Prod.fst).Nodup) : ∀ (d : Dict Text C) (x : Text),
    (∀ c, (x, c) ∈ is → Dict.get (writeInfo is d) x = some c) ∧
    (x ∉ is.map Prod.fst → Dict.get (writeInfo is d) x = Dict.get d x) := by
  induction is with
  | nil => intro d x; exact ⟨(fun c h => by cases h), fun _ => rfl⟩
  | cons i is ih =>
    obtain ⟨n, c0⟩ := i
    intro d x
    simp only [List.map_cons, List.nodup_cons] at hn
    have := ih hn.2 (Dict.put d n c0) x
    simp only [writeInfo]
    constructor
    · intro c hc
      rcases List.mem_cons.1 hc with e | e
      · cases e
        rw [this.2 hn.1, Dict.get_put, if_pos rfl]
      · exact this.1 c e
    · intro hx
      simp only [List.map_cons, List.mem_cons, not_or] at hx
      rw [this.2 hx.2, Dict.get_put, if_neg (Ne.symm hx.1)]

theorem call_built {hash : C → S} {current : Nat} {hv : HomeVal} {p : Prj C} {h : Hook} {d d' : Target C S} {n : Text}
    (hc : call hash current hv p h d = (.ok n, d')) : build hash current p d h = .ok (n, d') := by
  unfold call at hc
  split at hc
  · cases hc
  · split at hc
    · cases hc
    · rename_i n' d'' hb; cases hc; exact hb

theorem wheelFile_ok {hash : C → S} {current : Nat} {p : Prj C} {ed : Option (Text × (List Rel → C))} {d d' : Target C S}
    {n : Text} (hb : buildWheelFile hash current p ed d = .ok (n, d')) :
    ∃ w stem, buildWheel hash (distInfoName p.name p.version) p.info p.packages p.tree ed = .ok w ∧ n = stem ++ t!".whl" ∧
      d' = Dict.put d n (.wheel w) := by
  unfold buildWheelFile at hb
  split at hb
  · cases hb
  · rename_i w hw
    split at hb
    · cases hb
    · rename_i stem hs
      cases hb
      exact ⟨w, stem, hw, rfl, rfl⟩

/-! ### C115 -/

/-- C115: a hook that succeeds returns the name of what it made in the given directory: a wheel, a source distribution or a dist-info
directory. Nothing else in the directory changes. -/
theorem hook_returns (hash : C → S) (current : Nat) (hv : HomeVal) (p : Prj C) (h : Hook) (d d' : Target C S) (n : Text)
    (hc : call hash current hv p h d = (.ok n, d')) :
    (∃ m, Dict.get d' n = some m ∧ RightKind h m) ∧ rightEnd h <:+ n ∧ ∀ k, k ≠ n → Dict.get d' k = Dict.get d k := by
  have hb := call_built hc
  have hput : ∀ (m : Made C S), d' = Dict.put d n m → RightKind h m →
      (∃ m, Dict.get d' n = some m ∧ RightKind h m) ∧ ∀ k, k ≠ n → Dict.get d' k = Dict.get d k := by
    rintro m rfl hm
    exact ⟨⟨m, by rw [Dict.get_put, if_pos rfl], hm⟩, fun k hk => by rw [Dict.get_put, if_neg (Ne.symm hk)]⟩
  cases h with
  | wheel =>
    obtain ⟨w, stem, hw, hn, hd⟩ := wheelFile_ok hb
    have := hput _ hd trivial
    exact ⟨this.1, hn ▸ List.suffix_append _ _, this.2⟩
  | editable =>
    simp only [build] at hb
    obtain ⟨w, stem, hw, hn, hd⟩ := wheelFile_ok hb
    have := hput _ hd trivial
    exact ⟨this.1, hn ▸ List.suffix_append _ _, this.2⟩
  | sdist =>
    simp only [build] at hb
    split at hb
    · cases hb
    · rename_i t ht
      cases hb
      have := hput (.sdist t) rfl trivial
      exact ⟨this.1, List.suffix_append _ _, this.2⟩
  | prepareWheel =>
    simp only [build] at hb
    cases hb
    have := hput _ rfl trivial
    exact ⟨this.1, List.suffix_append _ _, this.2⟩
  | prepareEditable =>
    simp only [build] at hb
    cases hb
    have := hput _ rfl trivial
    exact ⟨this.1, List.suffix_append _ _, this.2⟩

theorem prepared {hash : C → S} {current : Nat} {hv : HomeVal} {p : Prj C} {h : Hook} {d d' : Target C S} {n : Text}
    (hh : h = .prepareWheel ∨ h = .prepareEditable) (hc : call hash current hv p h d = (.ok n, d'))
    (hf : Dict.get d n = none) : n = distInfoName p.name p.version ∧ Dict.get d' n = some (.info (writeInfo p.info [])) := by
  have hb := call_built hc
  rcases hh with rfl | rfl <;>
  · simp only [build] at hb
    cases hb
    refine ⟨rfl, ?_⟩
    rw [Dict.get_put, if_pos rfl, hf]
    rfl

/-- C115: the metadata that is prepared is the metadata in the wheel, file by file, for wheels and editable wheels. -/
theorem hook_metadata (hash : C → S) (current : Nat) (hv : HomeVal) (p : Prj C) (hi : InfoNames p.info)
    (prep whl : Hook) (hh : (prep = .prepareWheel ∧ whl = .wheel) ∨ (prep = .prepareEditable ∧ whl = .editable))
    (d d' e e' : Target C S) (n m : Text) (hf : Dict.get d n = none)
    (h1 : call hash current hv p prep d = (.ok n, d')) (h2 : call hash current hv p whl e = (.ok m, e')) :
    ∃ i w, Dict.get d' n = some (.info i) ∧ Dict.get e' m = some (.wheel w) ∧
      ∀ r c, (n :: r, c) ∈ w.files ↔ ∃ x, r = [x] ∧ Dict.get i x = some c := by
  obtain ⟨hn, hg⟩ := prepared (h := prep) (by rcases hh with ⟨rfl, -⟩ | ⟨rfl, -⟩ <;> simp) h1 hf
  have hb := call_built h2
  have hget : ∀ x c, Dict.get (writeInfo p.info []) x = some c ↔ (x, c) ∈ p.info := by
    intro x c
    obtain ⟨ha, hb⟩ := writeInfo_get p.info hi.once [] x
    constructor
    · intro hx
      by_cases hm : x ∈ p.info.map Prod.fst
      · obtain ⟨⟨y, c'⟩, hy, rfl⟩ := List.mem_map.1 hm
        rw [ha c' hy] at hx; cases hx; exact hy
      · rw [hb hm] at hx; cases hx
    · exact ha c
  rcases hh with ⟨-, rfl⟩ | ⟨-, rfl⟩
  · obtain ⟨w, stem, hw, hm, hd⟩ := wheelFile_ok hb
    refine ⟨_, w, hg, by rw [hd, Dict.get_put, if_pos rfl], fun r c => ?_⟩
    rw [wheel_mem hash _ _ _ _ w hw]
    constructor
    · rintro (⟨x, hx, he⟩ | ⟨q, hq, rest, he, -⟩)
      · cases he; exact ⟨x, rfl, (hget x c).2 hx⟩
      · exfalso
        obtain ⟨s, hs, -⟩ := buildWheel_plain hash _ _ _ _ w hw
        have hne : ∀ ps (tk : List Text) s, copySources p.tree ps tk = .ok s → ∀ q ∈ ps, lastName q ∉ tk := by
          intro ps
          induction ps with
          | nil => intro tk s _ q hq; cases hq
          | cons a ps ih =>
            intro tk s hcs q hq
            simp only [copySources] at hcs
            split at hcs
            · cases hcs
            · split at hcs
              · cases hcs
              · split at hcs
                · cases hcs
                · rename_i h3
                  split at hcs
                  · cases hcs
                  · rename_i s' hs'
                    rcases List.mem_cons.1 hq with rfl | hq
                    · simpa using h3
                    · intro hin
                      exact ih _ _ hs' q hq (List.mem_cons_of_mem _ hin)
        have := hne _ _ _ hs q hq
        rw [List.cons.injEq] at he
        rw [← he.1, hn] at this
        simp at this
    · rintro ⟨x, rfl, hx⟩
      exact Or.inl ⟨x, (hget x c).1 hx, by rw [hn]⟩
  · simp only [build] at hb
    obtain ⟨w, stem, hw, hm, hd⟩ := wheelFile_ok hb
    refine ⟨_, w, hg, by rw [hd, Dict.get_put, if_pos rfl], fun r c => ?_⟩
    simp only [buildWheel] at hw
    cases hw
    simp only [List.mem_append, List.mem_map, List.mem_singleton, Prod.mk.injEq]
    constructor
    · rintro (⟨x, hx, he, rfl⟩ | ⟨he, -⟩)
      · cases he; exact ⟨x.1, rfl, (hget _ _).2 hx⟩
      · exfalso
        rw [List.cons.injEq, hn] at he
        have := congrArg List.reverse he.1
        simp [distInfoName] at this
    · rintro ⟨x, rfl, hx⟩
      exact Or.inl ⟨(x, c), (hget x c).1 hx, by rw [hn], rfl⟩

/-- C115: without `PKM_HOME` the hooks do not depend on the home directory, and a plain project that can be built by `build_wheel` of
pkm can be built by the hook. -/
theorem hook_builds_partial (hash : C → S) (current : Nat) (home home' : Files.Path) (p : Prj C) (h : Hook) (d : Target C S) :
    call hash current (.path home) p h d = call hash current (.path home') p h d ∧
    ∀ w stem, h = .wheel → buildWheel hash (distInfoName p.name p.version) p.info p.packages p.tree none = .ok w →
      wheelStem current p.requires p.descriptor p.version = .ok stem →
      (call hash current (.path home) p h d).1 = .ok (stem ++ t!".whl") ∧
      Dict.get (call hash current (.path home) p h d).2 (stem ++ t!".whl") = some (.wheel w) := by
  refine ⟨rfl, ?_⟩
  rintro w stem rfl hw hs
  have : build hash current p d .wheel = .ok (stem ++ t!".whl", Dict.put d (stem ++ t!".whl") (.wheel w)) := by
    simp only [build, buildWheelFile, hw, hs]
  have hc : call hash current (.path home) p .wheel d = (.ok (stem ++ t!".whl"), Dict.put d (stem ++ t!".whl") (.wheel w)) := by
    unfold call
    simp only [this]
  rw [hc]
  exact ⟨rfl, by rw [Dict.get_put, if_pos rfl]⟩

/-- C115 is violated: with `PKM_HOME` set the hooks fail for every project, all but the one that builds editable wheels, and nothing is
built. -/
theorem hook_variable_violated (hash : C → S) (current : Nat) (st : Start) (t : Text) (ht : t ≠ [])
    (hv : Dict.get st.vars t!"PKM_HOME" = some t) (p : Prj C) (h : Hook) (hh : h ≠ .editable) (d : Target C S) :
    ∃ v, pkmHome st = .ok v ∧ call hash current v p h d = (.error .attribute, d) := by
  refine ⟨_, (home_variable_violated (C := C) st t ht hv).1, ?_⟩
  cases h <;> first | rfl | exact absurd rfl hh

/-- C115 is violated: where pkm has no home, building a containerized application makes one, although the hook has made a temporary
one. -/
theorem hook_home_violated (sh : Shipped C) (h : Files.Path) (temporary : Files.Path) (fs : Files.FS C)
    (hno : ∀ k, h <:+ k → Dict.get fs k = none)
    (hm : ∃ f, mkdirs fs h = some f) :
    Dict.get (containerized sh (.path h) temporary fs) h = some .dir := by
  obtain ⟨f, hm⟩ := hm
  have hx : Files.FS.ex fs h = false := by unfold Files.FS.ex; rw [hno h List.suffix_rfl]; rfl
  unfold containerized
  simp only [hx, seenBy]
  have hd := (mkdirs_spec hm).1
  have hu : useHome ((Self.new (.path h), fs) : St C) = (.ok h, ({ (Self.new (.path h) : Self C) with home := true }, f)) := by
    unfold useHome
    simp only [Self.new, hm]
    rfl
  have hk := keeps_settings sh (h := h) ({ (Self.new (.path h) : Self C) with home := true }) f (repositoriesFile h) sh.repositories
    (Or.inr ⟨rfl, rfl⟩) (o' := { (Self.new (.path h) : Self C) with home := true }) rfl
  have hset := KeptAt.some (hk.kept h) hd
  have goal : ∀ r, settings f (repositoriesFile h) sh.repositories = r →
      Dict.get (useLoader sh ((Self.new (.path h), fs) : St C)).2.2 h = some .dir := by
    intro r hr
    unfold useLoader
    rw [hu]
    dsimp only [Self.new]
    rw [hr] at hset ⊢
    rcases r with ⟨e | c, f'⟩
    · exact hset
    · dsimp only
      split <;> exact hset
  exact goal _ rfl

namespace Example

def prj : Prj Text where
  name := t!"My-App"
  descriptor := t!"my-app"
  version := t!"1.0"
  requires := .all
  info := [(t!"METADATA", t!"m"), (t!"WHEEL", t!"w")]
  packages := []
  tree := [([t!"src", t!"app", t!"__init__.py"], t!""), ([t!"src", t!"app", t!"main.py"], t!"print()")]
  pkgInfo := t!"m"
  pyproject := t!"p"
  links := fun _ => t!"src"

example : (call (S := Text) id 3 (.path []) prj .prepareWheel []).1 = .ok t!"My_App-1.0.dist-info" := rfl
example : ((call (S := Text) id 3 (.path []) prj .wheel []).1).toOption = some t!"my_app-1.0-py3-none-any.whl" := by decide +kernel
example : (call (S := Text) id 3 (.path []) prj .sdist []).1 = .ok t!"My_App-1.0.tar.gz" := rfl
example : ((call (S := Text) id 3 (.text t!"/srv/pkm") prj .editable []).1).toOption = some t!"my_app-1.0-py3-none-any.whl" := by
  decide +kernel
example : InfoNames prj.info := ⟨by decide, by decide⟩
example : mkdirs ([([], .dir)] : Files.FS Text) [t!"pkm", t!"ada"] ≠ none := by decide

end Example

end Hooks
end Pkm
