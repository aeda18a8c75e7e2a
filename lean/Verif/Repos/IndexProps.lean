import Verif.Repos.Index
import Verif.Collections.Props
import Verif.Version.Props
import Verif.Tags.Lemmas
/-
Property C71: what the index repositories offer.
-/
set_option linter.unusedVariables false
set_option linter.unusedSimpArgs false

namespace Pkm

namespace Spec
open Index

/-- The links of a page with their text: a start tag `a` directly followed by text. -/
def pageLinks (page : List Ev) : List (List (Text × Option Text) × Text) :=
  (page.zip page.tail).filterMap (fun e => match e with
    | (.start tag attrs, .data text) => if tag = t!"a" then some (attrs, text) else none
    | _ => none)

/-- The value of an attribute: the last one given counts. -/
def attrValue (attrs : List (Text × Option Text)) (k : Text) : Option Text :=
  ((attrs.filterMap (fun a => if a.1 = k then a.2 else none))).getLast?

/-- The python requirement given by a text: nothing for a missing or empty one, else what the text means as a specifier. -/
def PythonNeed (env : UrlEnv) (given : Option Text) (r : Option VSpec) : Prop :=
  ((given = none ∨ given = some []) ∧ r = none) ∨ ∃ s v, given = some s ∧ s ≠ [] ∧ parseSpecifier env s = .ok v ∧ r = some v

/-- The text is the name of a distribution file. -/
def IsDistFile (t : Text) : Prop := ∃ r sf, (sf = t!".whl" ∨ sf = t!".tar.gz" ∨ sf = t!".zip") ∧ t = r ++ sf

instance (t : Text) : Decidable (IsDistFile t) :=
  decidable_of_iff ((t!".whl" <:+ t) ∨ (t!".tar.gz" <:+ t) ∨ (t!".zip" <:+ t)) (by
    constructor
    · rintro (⟨r, h⟩ | ⟨r, h⟩ | ⟨r, h⟩)
      · exact ⟨r, _, Or.inl rfl, h.symm⟩
      · exact ⟨r, _, Or.inr (Or.inl rfl), h.symm⟩
      · exact ⟨r, _, Or.inr (Or.inr rfl), h.symm⟩
    · rintro ⟨r, sf, h | h | h, e⟩ <;> subst h
      · exact Or.inl ⟨r, e.symm⟩
      · exact Or.inr (Or.inl ⟨r, e.symm⟩)
      · exact Or.inr (Or.inr ⟨r, e.symm⟩))

/-- The links that name a distribution file and have an address. -/
def fileLinks (page : List Ev) : List (List (Text × Option Text) × Text) :=
  (pageLinks page).filter (fun l => (attrValue l.1 t!"href").isSome && decide (IsDistFile l.2))

/-- `file` is the wheel or the source distribution of a release whose version is written `v` (wheels:
`name-version-..`, PEP 427; source distributions: `name-version.tar.gz`, the name may contain dashes). -/
inductive FileOf (v : Text) : Text → Prop
  | wheel (n rest : Text) : '-' ∉ n → '-' ∉ v → FileOf v (n ++ '-' :: (v ++ '-' :: (rest ++ t!".whl")))
  | sdist (n : Text) : '-' ∉ v → FileOf v (n ++ '-' :: (v ++ t!".tar.gz"))
  | zip (n : Text) : '-' ∉ v → FileOf v (n ++ '-' :: (v ++ t!".zip"))

/-- The versions can be compared: standard ones have no local label. -/
def NoLabel : Ver → Prop
  | .std s => s.loc = none
  | _ => True

end Spec

namespace Index
open Spec

/-! ### sorting -/

theorem sortBy_congr {α} (le le' : α → α → Bool) (l : List α) (h : ∀ a ∈ l, ∀ b ∈ l, le a b = le' a b) :
    sortBy le l = sortBy le' l := by
  have hi : ∀ (x : α) (m : List α), (∀ b ∈ m, le x b = le' x b) → insertBy le x m = insertBy le' x m := by
    intro x m
    induction m with
    | nil => intro _; rfl
    | cons y ys ih =>
      intro hm
      simp only [insertBy, hm y (List.mem_cons_self ..), ih (fun b hb => hm b (List.mem_cons_of_mem _ hb))]
  induction l with
  | nil => rfl
  | cons x xs ih =>
    have ih := ih (fun a ha b hb => h a (List.mem_cons_of_mem _ ha) b (List.mem_cons_of_mem _ hb))
    simp only [sortBy, ih]
    refine hi x _ (fun b hb => h x (List.mem_cons_self ..) b (List.mem_cons_of_mem _ ?_))
    exact (sortBy_perm le' xs).mem_iff.mp hb

/-- The version with the label removed: on it the order is a strict weak order. -/
def clean : Ver → Ver
  | .std s => .std { s with loc := none }
  | v => v

theorem clean_id (v : Ver) (h : NoLabel v) : clean v = v := by
  cases v with
  | std s => cases s; simp only [NoLabel] at h; subst h; rfl
  | url => rfl
  | named => rfl

theorem strLt_neg_trans (a b c : Text) (h1 : strLt a b = false) (h2 : strLt b c = false) : strLt a c = false := by
  cases h : strLt a c with
  | false => rfl
  | true =>
    rcases strLt_total a b with e | e | e
    · subst e; rw [h] at h2; exact absurd h2 (by simp)
    · rw [e] at h1; exact absurd h1 (by simp)
    · have := strLt_trans b a c e h; rw [this] at h2; exact absurd h2 (by simp)

theorem std_neg_trans (a b c : SV) (ha : a.loc = none) (hb : b.loc = none) (h1 : a.lt b = false)
    (h2 : b.lt c = false) : a.lt c = false := by
  cases h : a.lt c with
  | false => rfl
  | true =>
    have hab : ¬ (SamePublic a b ∧ LabelClash a.loc b.loc) := by
      rintro ⟨_, hc⟩
      rw [ha, hb] at hc
      rcases hc with ⟨p, m, n, s, t, hx, hy, hmn, hm, hn⟩ | ⟨_, hy⟩ | ⟨hx, _⟩
      · rw [hx] at hy
        have := List.append_cancel_left hy
        simp at this
        exact hmn this.1
      · simp at hy
      · simp at hx
    rcases (std_trichotomy_iff a b).2 hab with ⟨k, _, _⟩ | ⟨_, k, _⟩ | ⟨_, _, k⟩
    · rw [k] at h1; exact absurd h1 (by simp)
    · rw [SV.eqv_stage.congrL a b c k, h2] at h; exact absurd h (by simp)
    · have := SV.eqv_stage.ltTrans b a c k h; rw [this] at h2; exact absurd h2 (by simp)

theorem clean_neg_trans (a b c : Ver) (h1 : (clean a).lt (clean b) = false) (h2 : (clean b).lt (clean c) = false) :
    (clean a).lt (clean c) = false := by
  cases a <;> cases b <;> cases c <;> simp only [clean, Ver.lt] at * <;>
    first
    | exact strLt_neg_trans _ _ _ h1 h2
    | exact std_neg_trans _ _ _ rfl rfl h1 h2
    | simp_all

/-- Descending: nothing is followed by something newer. -/
theorem sortDown_sorted (ps : List Pkg) (h : ∀ p ∈ ps, NoLabel p.version) :
    (sortDown ps).Pairwise (fun a b => a.version.lt b.version = false) := by
  have e : sortDown ps = sortBy (fun a b : Pkg => !((clean a.version).lt (clean b.version))) ps := by
    apply sortBy_congr
    intro a ha b hb
    rw [clean_id _ (h a ha), clean_id _ (h b hb)]
  have hs := sortBy_sorted (fun a b : Pkg => !((clean a.version).lt (clean b.version)))
    (fun a b => by
      cases hab : (clean a.version).lt (clean b.version) with
      | false => left; rfl
      | true => right; rw [version_lt_asymm _ _ hab]; rfl)
    (fun a b c hab hbc => by
      simp only [Bool.not_eq_true'] at *
      exact clean_neg_trans _ _ _ hab hbc) ps
  rw [e]
  refine List.Pairwise.imp_of_mem ?_ hs
  intro a b ha hb hab
  have ha := (sortBy_perm _ ps).mem_iff.mp ha
  have hb := (sortBy_perm _ ps).mem_iff.mp hb
  simp only [Bool.not_eq_true'] at hab
  rwa [clean_id _ (h a ha), clean_id _ (h b hb)] at hab

theorem sortDown_mem (ps : List Pkg) (p : Pkg) : p ∈ sortDown ps ↔ p ∈ ps := (sortBy_perm _ ps).mem_iff

/-! ### the links of a page -/

theorem endswithAny_isSome (t : Text) : (endswithAny t extensions).isSome = true ↔ IsDistFile t := by
  simp only [endswithAny, extensions, List.find?_isSome, List.mem_cons, List.not_mem_nil, or_false,
    List.isSuffixOf_iff_suffix]
  constructor
  · rintro ⟨sf, h, r, e⟩
    exact ⟨r, sf, h, e.symm⟩
  · rintro ⟨r, sf, h, e⟩
    exact ⟨sf, h, r, e.symm⟩

theorem attrDict_get (as : List (Text × Option Text)) (k : Text) : ∀ d : Dict Text Text,
    Dict.get (attrDict as d) k = (attrValue as k).or (Dict.get d k) := by
  induction as with
  | nil => intro d; simp [attrDict, attrValue]
  | cons a as ih =>
    intro d
    obtain ⟨j, v⟩ := a
    cases v with
    | none =>
      simp only [attrDict, ih d, attrValue, List.filterMap_cons]
      by_cases hj : j = k <;> simp [hj]
    | some v =>
      simp only [attrDict, ih, attrValue, List.filterMap_cons, Dict.get_put]
      by_cases hj : j = k
      · subst hj
        simp only [if_true]
        cases hl : List.filterMap (fun a : Text × Option Text => if a.1 = j then a.2 else none) as with
        | nil => simp
        | cons y ys => simp [List.getLast?_cons, Option.or]
      · have hk : k ≠ j := fun e => hj e.symm
        simp [hj, hk]

theorem forall₂_imp {A B : Type} {R S : A → B → Prop} (h : ∀ a b, R a b → S a b) {l : List A} {m : List B}
    (hl : List.Forall₂ R l m) : List.Forall₂ S l m := by
  induction hl with
  | nil => exact .nil
  | cons hx _ ih => exact .cons (h _ _ hx) ih

theorem readRequires_iff (env : UrlEnv) (given : Option Text) (r : Option VSpec) :
    readRequires env given = .ok r ↔ PythonNeed env given r := by
  unfold PythonNeed
  rcases given with _ | _ | ⟨c, cs⟩
  · simp [readRequires, eq_comm]
  · simp [readRequires, eq_comm]
  · simp only [readRequires]
    cases h : parseSpecifier env (c :: cs) with
    | error e => simp [h]
    | ok v => simp [h, eq_comm]

/-- What one link gives. -/
def LinkArt (env : UrlEnv) (base : Text) (l : List (Text × Option Text) × Text) (a : Art) : Prop :=
  a.file = l.2 ∧ (∃ href, attrValue l.1 t!"href" = some href ∧ a.url = linkUrl base href) ∧
    readRequires env (attrValue l.1 t!"data-requires-python") = .ok a.requires

theorem element_ok (env : UrlEnv) (base : Text) (attrs : List (Text × Option Text)) (text : Text) (as : List Art)
    (h : element env base t!"a" (attrDict attrs []) text = .ok as) :
    List.Forall₂ (LinkArt env base) ([(attrs, text)].filter
      (fun l => (attrValue l.1 t!"href").isSome && decide (IsDistFile l.2))) as := by
  simp only [element, if_true, attrDict_get, Dict.get, Option.or_none] at h
  cases hh : attrValue attrs t!"href" with
  | none =>
    rw [hh] at h; simp only [Except.ok.injEq] at h; subst h
    simp [hh]
  | some href =>
    rw [hh] at h
    simp only at h
    cases hr : readRequires env (attrValue attrs t!"data-requires-python") with
    | error e => rw [hr] at h; simp at h
    | ok r =>
      rw [hr] at h
      simp only at h
      by_cases hd : IsDistFile text
      · rw [if_pos ((endswithAny_isSome text).2 hd)] at h
        simp only [Except.ok.injEq] at h; subst h
        simp only [List.filter_cons, hh, hd, Option.isSome_some, decide_true, Bool.and_self, if_true, List.filter_nil]
        exact .cons ⟨rfl, ⟨href, hh, rfl⟩, hr⟩ .nil
      · rw [if_neg (fun c => hd ((endswithAny_isSome text).1 c))] at h
        simp only [Except.ok.injEq] at h; subst h
        simp [hh, hd]

theorem element_other (env : UrlEnv) (base tag : Text) (d : Dict Text Text) (text : Text) (h : tag ≠ t!"a") :
    element env base tag d text = .ok [] := by
  simp only [element]; rw [if_neg h]

theorem element_empty (env : UrlEnv) (base tag : Text) (d : Dict Text Text) (as : List Art)
    (h : element env base tag d [] = .ok as) : as = [] := by
  simp only [element] at h
  split at h
  · split at h
    · simpa using h.symm
    · split at h
      · simp at h
      · rw [if_neg (by decide)] at h; simpa using h.symm
  · simpa using h.symm

theorem andThen_ok {a b : Except IErr (List Art)} {as : List Art} (h : andThen a b = .ok as) :
    ∃ x y, a = .ok x ∧ b = .ok y ∧ as = x ++ y := by
  unfold andThen at h
  cases a with
  | error e => simp at h
  | ok x =>
    cases b with
    | error e => simp at h
    | ok y => exact ⟨x, y, rfl, rfl, by simpa using h.symm⟩

/-- The calls that are still open: a start tag that waits for its text. -/
def pendEv : Option (Text × List (Text × Option Text)) → List Ev
  | none => []
  | some (tag, attrs) => [.start tag attrs]

theorem forall₂_append {α β} {R : α → β → Prop} {a c : List α} {b d : List β} (h1 : List.Forall₂ R a b)
    (h2 : List.Forall₂ R c d) : List.Forall₂ R (a ++ c) (b ++ d) := by
  induction h1 with
  | nil => exact h2
  | cons h _ ih => exact .cons h ih

theorem pageLinks_start (tag : Text) (attrs : List (Text × Option Text)) (e : Ev) (es : List Ev) :
    pageLinks (.start tag attrs :: e :: es) =
      (match e with
        | .data text => if tag = t!"a" then [(attrs, text)] else []
        | _ => []) ++ pageLinks (e :: es) := by
  cases e <;> simp [pageLinks, List.zip_cons_cons, List.filterMap_cons]
  split <;> simp_all

theorem pageLinks_other (e : Ev) (es : List Ev) (h : ∀ tag attrs, e ≠ .start tag attrs) :
    pageLinks (e :: es) = pageLinks es := by
  cases es with
  | nil => simp [pageLinks]
  | cons f fs =>
    cases e with
    | start tag attrs => exact absurd rfl (h tag attrs)
    | data t => simp [pageLinks, List.zip_cons_cons, List.filterMap_cons]
    | close t => simp [pageLinks, List.zip_cons_cons, List.filterMap_cons]

theorem feed_ok (env : UrlEnv) (base : Text) (es : List Ev) : ∀ (p : Option (Text × List (Text × Option Text)))
    (as : List Art), feed env base p es = .ok as →
    List.Forall₂ (LinkArt env base) (fileLinks (pendEv p ++ es)) as := by
  induction es with
  | nil =>
    intro p as h
    simp only [feed, Except.ok.injEq] at h; subst h
    cases p <;> simp [pendEv, fileLinks, pageLinks]
  | cons e es ih =>
    intro p as h
    cases e with
    | start tag attrs =>
      have hh : feed env base (some (tag, attrs)) es = .ok as := by
        cases p <;> simpa only [feed] using h
      have := ih _ _ hh
      cases p with
      | none => exact this
      | some q =>
        obtain ⟨t0, a0⟩ := q
        simp only [pendEv, List.singleton_append, fileLinks, pageLinks_start, List.nil_append] at *
        exact this
    | data text =>
      cases p with
      | none =>
        simp only [feed] at h
        have := ih none as h
        simp only [pendEv, List.nil_append, fileLinks] at *
        rw [pageLinks_other _ _ (by simp)]
        exact this
      | some q =>
        obtain ⟨tag, attrs⟩ := q
        simp only [feed] at h
        obtain ⟨x, y, hx, hy, rfl⟩ := andThen_ok h
        have h2 := ih none y hy
        simp only [pendEv, List.nil_append, List.singleton_append, fileLinks, pageLinks_start, List.filter_append] at *
        rw [pageLinks_other _ _ (by simp)]
        refine forall₂_append ?_ h2
        by_cases ht : tag = t!"a"
        · subst ht
          simp only [if_true]
          exact element_ok env base attrs text x hx
        · rw [element_other env base tag _ text ht] at hx
          simp only [Except.ok.injEq] at hx; subst hx
          simp [ht]
    | close tag' =>
      cases p with
      | none =>
        simp only [feed] at h
        have := ih none as h
        simp only [pendEv, List.nil_append, fileLinks] at *
        rw [pageLinks_other _ _ (by simp)]
        exact this
      | some q =>
        obtain ⟨tag, attrs⟩ := q
        simp only [feed] at h
        obtain ⟨x, y, hx, hy, rfl⟩ := andThen_ok h
        have h2 := ih none y hy
        rw [element_empty _ _ _ _ _ hx]
        simp only [pendEv, List.nil_append, List.singleton_append, fileLinks, pageLinks_start, List.filter_append] at *
        rw [pageLinks_other _ _ (by simp)]
        exact h2

/-- C71: the artifacts taken from a page are its links to distribution files, one for one and in the order of the
page, each with the name shown, its address and its python requirement. -/
theorem simple_links (env : UrlEnv) (base : Text) (page : List Ev) (as : List Art)
    (h : feed env base none page = .ok as) :
    List.Forall₂ (fun l a => a.file = l.2 ∧
      (∃ href, attrValue l.1 t!"href" = some href ∧ a.url = linkUrl base href) ∧
      PythonNeed env (attrValue l.1 t!"data-requires-python") a.requires) (fileLinks page) as :=
  forall₂_imp (fun _ _ x => ⟨x.1, x.2.1, (readRequires_iff _ _ _).1 x.2.2⟩) (feed_ok env base page none as h)


theorem element_total (env : UrlEnv) (base tag : Text) (attrs : List (Text × Option Text)) (text : Text)
    (h : ∃ r, readRequires env (attrValue attrs t!"data-requires-python") = .ok r) :
    ∃ as, element env base tag (attrDict attrs []) text = .ok as := by
  obtain ⟨r, hr⟩ := h
  simp only [element, attrDict_get, Dict.get, Option.or_none, hr]
  split
  · split
    · exact ⟨_, rfl⟩
    · split <;> exact ⟨_, rfl⟩
  · exact ⟨_, rfl⟩

theorem feed_total (env : UrlEnv) (base : Text) (es : List Ev) : ∀ (p : Option (Text × List (Text × Option Text))),
    (∀ tag attrs, Ev.start tag attrs ∈ pendEv p ++ es →
      ∃ r, readRequires env (attrValue attrs t!"data-requires-python") = .ok r) →
    ∃ as, feed env base p es = .ok as := by
  induction es with
  | nil => intro p _; exact ⟨[], by cases p <;> simp [feed]⟩
  | cons e es ih =>
    intro p h
    have hnone : ∃ as, feed env base none es = .ok as :=
      ih none (fun tag attrs hm => h tag attrs (by simp [pendEv] at hm; simp [hm]))
    obtain ⟨y, hy⟩ := hnone
    cases e with
    | start tag attrs =>
      obtain ⟨as, has⟩ := ih (some (tag, attrs)) (fun t a hm => h t a (by
        simp only [pendEv, List.singleton_append, List.mem_cons] at hm
        simp only [List.mem_append, List.mem_cons]
        exact Or.inr hm))
      exact ⟨as, by cases p <;> simpa only [feed] using has⟩
    | data text =>
      cases p with
      | none => exact ⟨y, by simpa only [feed] using hy⟩
      | some q =>
        obtain ⟨tag, attrs⟩ := q
        obtain ⟨x, hx⟩ := element_total env base tag attrs text (h tag attrs (by simp [pendEv]))
        exact ⟨x ++ y, by simp only [feed, hx, hy, andThen]⟩
    | close t =>
      cases p with
      | none => exact ⟨y, by simpa only [feed] using hy⟩
      | some q =>
        obtain ⟨tag, attrs⟩ := q
        obtain ⟨x, hx⟩ := element_total env base tag attrs [] (h tag attrs (by simp [pendEv]))
        exact ⟨x ++ y, by simp only [feed, hx, hy, andThen]⟩

example (env : UrlEnv) : PythonNeed env (attrValue [(t!"href", some t!"x"), (t!"data-requires-python", some [])] t!"data-requires-python") none :=
  .inl ⟨.inr rfl, rfl⟩

/-- C71: a page can be read if every python requirement on it can be parsed. -/
theorem simple_links_readable (env : UrlEnv) (base : Text) (page : List Ev)
    (h : ∀ tag attrs, Ev.start tag attrs ∈ page →
      ∃ r, PythonNeed env (attrValue attrs t!"data-requires-python") r) :
    ∃ as, feed env base none page = .ok as :=
  feed_total env base page none (fun tag attrs hm => (h tag attrs hm).imp fun _ => (readRequires_iff _ _ _).2)

/-! ### versions in file names -/

theorem endswithAny_append (r : Text) :
    endswithAny (r ++ t!".whl") extensions = some t!".whl" ∧
    endswithAny (r ++ t!".tar.gz") extensions = some t!".tar.gz" ∧
    endswithAny (r ++ t!".zip") extensions = some t!".zip" := by
  have e : ∀ (a b : Text), a.length ≤ b.length → ((a.isSuffixOf (r ++ b)) = a.isSuffixOf b) := by
    intro a b hl
    rw [Bool.eq_iff_iff, List.isSuffixOf_iff_suffix, List.isSuffixOf_iff_suffix]
    constructor
    · intro h
      exact List.suffix_of_suffix_length_le h (List.suffix_append r b) hl
    · intro h; exact h.trans (List.suffix_append r b)
  have n1 : (t!".whl".isSuffixOf (r ++ t!".tar.gz")) = false := by rw [e _ _ (by decide)]; decide
  have n2 : (t!".whl".isSuffixOf (r ++ t!".zip")) = false := by rw [e _ _ (by decide)]; decide
  have n3 : (t!".tar.gz".isSuffixOf (r ++ t!".zip")) = false := by
    rw [Bool.eq_false_iff]
    intro h
    rw [List.isSuffixOf_iff_suffix] at h
    have := List.suffix_of_suffix_length_le (List.suffix_append r t!".zip") h (by decide)
    revert this; decide
  have y : ∀ b : Text, (b.isSuffixOf (r ++ b)) = true := by
    intro b; rw [List.isSuffixOf_iff_suffix]; exact List.suffix_append r b
  simp only [endswithAny, extensions, List.find?_cons, n1, n2, n3, y, and_self]

theorem splitOn_last (r v : Text) (hv : '-' ∉ v) : (splitOn '-' (r ++ '-' :: v)).getLast? = some v := by
  induction r with
  | nil => simp [splitOn, Tags.splitOn_one '-' v hv]
  | cons c r ih =>
    simp only [List.cons_append, splitOn]
    split
    · rw [List.getLast?_cons, ih]; rfl
    · cases hs : splitOn '-' (r ++ '-' :: v) with
      | nil => rw [hs] at ih; simp at ih
      | cons s ss =>
        rw [hs] at ih
        cases ss with
        | nil =>
          exfalso
          -- there is a separator, so there are at least two pieces
          clear ih
          induction r generalizing s with
          | nil => simp [splitOn, Tags.splitOn_one '-' v hv] at hs
          | cons d r ih2 =>
            simp only [List.cons_append, splitOn] at hs
            split at hs
            · simp only [List.cons.injEq] at hs
              cases hx : splitOn '-' (r ++ '-' :: v) with
              | nil => exact absurd hx (by
                  cases hr : r ++ '-' :: v with
                  | nil => simp [splitOn]
                  | cons a b => simp only [splitOn]; split <;> (try simp) <;> split <;> simp)
              | cons a b => rw [hx] at hs; simp at hs
            · cases hx : splitOn '-' (r ++ '-' :: v) with
              | nil => exact absurd hx (by
                  cases hr : r ++ '-' :: v with
                  | nil => simp [splitOn]
                  | cons a b => simp only [splitOn]; split <;> (try simp) <;> split <;> simp)
              | cons a b =>
                rw [hx] at hs
                simp only [List.cons.injEq] at hs
                exact ih2 a (by rw [hx, hs.2])
        | cons s2 ss => simpa [List.getLast?_cons] using ih

/-- C71: the version of a wheel or of a source distribution is read off its file name. -/
theorem simple_file_version (v file : Text) (h : FileOf v file) : extractVersion file = .ok v := by
  cases h with
  | wheel n rest hn hv =>
    have e : n ++ '-' :: (v ++ '-' :: (rest ++ t!".whl")) = (n ++ '-' :: (v ++ '-' :: rest)) ++ t!".whl" := by simp
    have hw : Coll.withoutSuffix (n ++ '-' :: (v ++ '-' :: (rest ++ t!".whl"))) t!".whl" =
        n ++ '-' :: (v ++ '-' :: rest) :=
      (without_suffix_partial _ _ (by simp)).1 _ e
    simp only [extractVersion]
    rw [show endswithAny (n ++ '-' :: (v ++ '-' :: (rest ++ t!".whl"))) extensions = some t!".whl" by
      rw [e]; exact (endswithAny_append _).1]
    simp only [if_true, hw, Tags.splitOn_step '-' n _ hn, Tags.splitOn_step '-' v _ hv, List.getElem?_cons_succ,
      List.getElem?_cons_zero]
  | sdist n hv =>
    have e : n ++ '-' :: (v ++ t!".tar.gz") = (n ++ '-' :: v) ++ t!".tar.gz" := by simp
    have hw : Coll.withoutSuffix (n ++ '-' :: (v ++ t!".tar.gz")) t!".tar.gz" = n ++ '-' :: v :=
      (without_suffix_partial _ _ (by simp)).1 _ e
    simp only [extractVersion]
    rw [show endswithAny (n ++ '-' :: (v ++ t!".tar.gz")) extensions = some t!".tar.gz" by
      rw [e]; exact (endswithAny_append _).2.1]
    simp only [hw, splitOn_last n v hv, Option.getD_some]
    rfl
  | zip n hv =>
    have e : n ++ '-' :: (v ++ t!".zip") = (n ++ '-' :: v) ++ t!".zip" := by simp
    have hw : Coll.withoutSuffix (n ++ '-' :: (v ++ t!".zip")) t!".zip" = n ++ '-' :: v :=
      (without_suffix_partial _ _ (by simp)).1 _ e
    simp only [extractVersion]
    rw [show endswithAny (n ++ '-' :: (v ++ t!".zip")) extensions = some t!".zip" by
      rw [e]; exact (endswithAny_append _).2.2]
    simp only [hw, splitOn_last n v hv, Option.getD_some]
    rfl

example : extractVersion t!"My_Pkg-1.0-py3-none-any.whl" = .ok t!"1.0" ∧
    extractVersion t!"my-pkg-1.0.tar.gz" = .ok t!"1.0" := ⟨rfl, rfl⟩

/-- C71 fails: the source distribution of the version `1.0-1` (a post release in the spelling that PEP 440 allows)
counts as version `1`. -/
theorem simple_file_version_violated : extractVersion t!"demo-1.0-1.tar.gz" = .ok t!"1" := rfl

/-! ### the answer -/

theorem keyed_ok : ∀ (as : List Art) (ks : List (Text × Art)), keyed as = .ok ks →
    ks.map (·.2) = as ∧ ∀ k ∈ ks, extractVersion k.2.file = .ok k.1 := by
  intro as
  induction as with
  | nil => intro ks h; simp only [keyed, Except.ok.injEq] at h; subst h; simp
  | cons a as ih =>
    intro ks h
    simp only [keyed] at h
    cases hv : extractVersion a.file with
    | error e => rw [hv] at h; simp at h
    | ok v =>
      rw [hv] at h
      simp only at h
      cases hk : keyed as with
      | error e => rw [hk] at h; simp at h
      | ok r =>
        rw [hk] at h
        simp only [Except.ok.injEq] at h; subst h
        obtain ⟨h1, h2⟩ := ih r hk
        refine ⟨by simp [h1], ?_⟩
        intro k hkm
        rcases List.mem_cons.1 hkm with rfl | hkm
        · exact hv
        · exact h2 k hkm

theorem keyed_total (as : List Art) (h : ∀ a ∈ as, ∃ v, extractVersion a.file = .ok v) :
    ∃ ks, keyed as = .ok ks := by
  induction as with
  | nil => exact ⟨[], rfl⟩
  | cons a as ih =>
    obtain ⟨ks, hk⟩ := ih (fun b hb => h b (List.mem_cons_of_mem _ hb))
    obtain ⟨v, hv⟩ := h a (List.mem_cons_self ..)
    exact ⟨(v, a) :: ks, by simp [keyed, hv, hk]⟩

/-- The files whose name carries the version text `v`. -/
def filesOf (v : Text) (as : List Art) : List Art :=
  as.filter (fun a => match extractVersion a.file with
    | .ok w => decide (w = v)
    | .error _ => false)

theorem filter_keyed (v : Text) : ∀ (ks : List (Text × Art)), (∀ k ∈ ks, extractVersion k.2.file = .ok k.1) →
    (ks.filter (fun k => decide (k.1 = v))).map (·.2) = filesOf v (ks.map (·.2)) := by
  intro ks
  induction ks with
  | nil => intro _; rfl
  | cons k ks ih =>
    intro h
    have hk := h k (List.mem_cons_self ..)
    have ih := ih (fun x hx => h x (List.mem_cons_of_mem _ hx))
    simp only [filesOf] at ih
    simp only [filesOf, List.map_cons, List.filter_cons, hk]
    by_cases hv : k.1 = v
    · simp [hv, ih]
    · simp [hv, ih]

/-- C71: the packages on a page are one per version text, each with exactly the files that carry this text, in the
order of the page. -/
theorem packagesOf_mem (env : UrlEnv) (base dep n : Text) (page : List Ev) (as : List Art) (ps : List Pkg)
    (hn : descriptorName dep = some n) (hf : feed env base none page = .ok as)
    (h : packagesOf env base dep page = .ok ps) (p : Pkg) :
    p ∈ ps ↔ ∃ v, filesOf v as ≠ [] ∧ p = ⟨n, parseVersion env v, filesOf v as⟩ := by
  simp only [packagesOf, hf] at h
  cases hk : keyed as with
  | error e => rw [hk] at h; simp at h
  | ok ks =>
    rw [hk] at h
    simp only at h
    obtain ⟨h1, h2⟩ := keyed_ok as ks hk
    have hps : ps = (Coll.groupby ks (·.1)).map (fun g => ⟨n, parseVersion env g.1, g.2.map (·.2)⟩) := by
      unfold describe at h
      rw [hn] at h
      cases hg : Coll.groupby ks (·.1) with
      | nil => rw [hg] at h; simpa using h.symm
      | cons g gs => rw [hg] at h; simpa using h.symm
    have hwf : Dict.Wf (Coll.groupby ks (·.1)) := (groupby_keys ks (·.1)).1
    have hgrp := groupby_groups ks (·.1)
    have hfil : ∀ v, filesOf v as = (ks.filter (fun k => decide (k.1 = v))).map (·.2) := by
      intro v; rw [filter_keyed v ks h2, h1]
    rw [hps]
    constructor
    · intro hp
      obtain ⟨g, hg, rfl⟩ := List.mem_map.1 hp
      obtain ⟨v, l⟩ := g
      have hget := Dict.mem_get _ v l hwf hg
      have hgv := hgrp v
      rw [hget] at hgv
      by_cases he : (ks.filter (fun x => decide (x.1 = v))).isEmpty
      · simp [he] at hgv
      · rw [if_neg he] at hgv
        simp only [Option.some.injEq] at hgv
        subst hgv
        refine ⟨v, ?_, by rw [hfil]⟩
        rw [hfil]
        intro hc
        rw [List.map_eq_nil_iff] at hc
        rw [hc] at he; exact he rfl
    · rintro ⟨v, hne, rfl⟩
      rw [hfil] at hne
      have he : ¬ (ks.filter (fun x => decide (x.1 = v))).isEmpty = true := by
        intro hc
        rw [List.isEmpty_iff] at hc
        rw [hc] at hne; exact hne rfl
      have hgv := hgrp v
      rw [if_neg he] at hgv
      have hm := Dict.get_mem _ _ _ hgv
      exact List.mem_map.2 ⟨_, hm, by rw [hfil]⟩

/-- C71: what a simple repository answers to a first request: for every version text on the page that the request
allows, one package with exactly the files of this text, and nothing else. -/
theorem simple_match_exact (env : UrlEnv) (base dep n : Text) (spec : VSpec) (page : List Ev) (as : List Art)
    (seen : Seen) (ps : List Pkg) (hseen : Dict.get seen dep = none) (hn : descriptorName dep = some n)
    (hf : feed env base none page = .ok as)
    (h : (simpleMatch env base seen dep spec page).1 = .ok ps) (p : Pkg) :
    p ∈ ps ↔ ∃ v, (∃ a ∈ as, extractVersion a.file = .ok v) ∧ spec.allows (parseVersion env v) = true ∧
      p.name = n ∧ p.version = parseVersion env v ∧
      ∃ q : Art → Bool, (∀ a ∈ as, q a = true ↔ extractVersion a.file = .ok v) ∧ p.artifacts = as.filter q := by
  simp only [simpleMatch, hseen, Option.filter_none] at h
  cases hk : packagesOf env base dep page with
  | error e => rw [hk] at h; simp at h
  | ok qs =>
    rw [hk] at h
    simp only [Except.ok.injEq] at h
    subst h
    have hm := packagesOf_mem env base dep n page as qs hn hf hk
    have hq : ∀ v, ∀ a ∈ as, (match extractVersion a.file with
        | .ok w => decide (w = v)
        | .error _ => false) = true ↔ extractVersion a.file = .ok v := by
      intro v a _
      cases hx : extractVersion a.file <;> simp
    rw [sortDown_mem, List.mem_filter, hm]
    constructor
    · rintro ⟨⟨v, hne, rfl⟩, ha⟩
      refine ⟨v, ?_, ha, rfl, rfl, _, hq v, rfl⟩
      obtain ⟨a, ham⟩ := List.exists_mem_of_ne_nil _ hne
      obtain ⟨ha1, ha2⟩ := List.mem_filter.1 ham
      exact ⟨a, ha1, (hq v a ha1).1 ha2⟩
    · rintro ⟨v, ⟨a, ha, hav⟩, hall, h1, h2, q, hqq, h3⟩
      have e : as.filter q = filesOf v as := by
        refine List.filter_congr (fun b hb => ?_)
        rw [Bool.eq_iff_iff, hqq b hb, hq v b hb]
      obtain ⟨pn, pv, pa⟩ := p
      simp only at h1 h2 h3
      subst h1 h2 h3
      refine ⟨⟨v, ?_, by rw [e]⟩, hall⟩
      intro hc
      have : a ∈ filesOf v as := List.mem_filter.2 ⟨ha, (hq v a ha).2 hav⟩
      rw [hc] at this; simp at this

/-- C71: the answer is sorted, newest first. -/
theorem simple_match_order_partial (env : UrlEnv) (base dep : Text) (spec : VSpec) (page : List Ev) (seen : Seen)
    (ps : List Pkg) (h : (simpleMatch env base seen dep spec page).1 = .ok ps)
    (hl : ∀ p ∈ ps, NoLabel p.version) : ps.Pairwise (fun a b => a.version.lt b.version = false) := by
  have key : ∃ qs, ps = sortDown qs := by
    simp only [simpleMatch] at h
    split at h
    · exact ⟨_, by simpa using h.symm⟩
    · split at h
      · simp at h
      · exact ⟨_, by simpa using h.symm⟩
  obtain ⟨qs, rfl⟩ := key
  exact sortDown_sorted qs (fun p hp => hl p ((sortDown_mem qs p).2 hp))

/-! ### histories -/

/-- A run of requests against the repository (sr 33-53): the answers. `pages dep` is the page of a name. -/
def serve (env : UrlEnv) (base : Text) (pages : Text → List Ev) : Seen → List (Text × VSpec) →
    List (Except IErr (List Pkg))
  | _, [] => []
  | seen, (dep, spec) :: qs =>
    let r := simpleMatch env base seen dep spec (pages dep)
    r.1 :: serve env base pages r.2 qs

/-- What is remembered is what the pages say. -/
def Faithful (env : UrlEnv) (base : Text) (pages : Text → List Ev) (seen : Seen) : Prop :=
  ∀ dep ps, Dict.get seen dep = some ps → packagesOf env base dep (pages dep) = .ok ps

theorem match_fresh (env : UrlEnv) (base : Text) (pages : Text → List Ev) (seen : Seen) (dep : Text) (spec : VSpec)
    (h : Faithful env base pages seen) :
    (simpleMatch env base seen dep spec (pages dep)).1 = (simpleMatch env base [] dep spec (pages dep)).1 ∧
      Faithful env base pages (simpleMatch env base seen dep spec (pages dep)).2 := by
  have e0 : Dict.get ([] : Seen) dep = none := rfl
  simp only [simpleMatch, e0, Option.filter_none]
  cases hg : (Dict.get seen dep).filter (fun ps => !ps.isEmpty) with
  | some ps =>
    have hg' : Dict.get seen dep = some ps := (Option.filter_eq_some_iff.1 hg).1
    simp only [h dep ps hg', true_and]
    exact h
  | none =>
    simp only
    cases hp : packagesOf env base dep (pages dep) with
    | error e => exact ⟨rfl, h⟩
    | ok ps =>
      refine ⟨rfl, ?_⟩
      intro d qs hd
      simp only [Dict.get_put] at hd
      by_cases he : d = dep
      · subst he; simp at hd; subst hd; exact hp
      · rw [if_neg (fun e => he e.symm)] at hd; exact h d qs hd

theorem serve_fresh (env : UrlEnv) (base : Text) (pages : Text → List Ev) (qs : List (Text × VSpec)) :
    ∀ seen : Seen, Faithful env base pages seen →
      serve env base pages seen qs = qs.map (fun q => (simpleMatch env base [] q.1 q.2 (pages q.1)).1) := by
  induction qs with
  | nil => intro _ _; rfl
  | cons q qs ih =>
    intro seen h
    obtain ⟨dep, spec⟩ := q
    have := match_fresh env base pages seen dep spec h
    simp only [serve, List.map_cons, this.1, ih _ this.2]

/-- C71: while the pages stay the same, every answer is the one a new repository object would give, whatever was
asked before. -/
theorem simple_history (env : UrlEnv) (base : Text) (pages : Text → List Ev) (qs : List (Text × VSpec)) :
    serve env base pages [] qs = qs.map (fun q => (simpleMatch env base [] q.1 q.2 (pages q.1)).1) :=
  serve_fresh env base pages qs [] (fun _ _ h => by simp [Dict.get] at h)


/-! ### where the simple repository differs from PEP 503 -/

/-- An address relative to a directory, without dot segments (RFC 3986, 5.2.3). -/
def besidePage (pageDir href : Text) : Text := pageDir ++ '/' :: href

/-- C71 fails: a link that is relative to the page is taken as relative to the root of the host. Whatever the
page below the root, the address is another one. -/
theorem simple_relative_link_violated (base dir href : Text) (hd : dir ≠ []) (h0 : ¬ t!"http" <+: href)
    (h1 : ∀ r, href ≠ '/' :: r) :
    linkUrl base href = base ++ '/' :: href ∧
      linkUrl base href ≠ besidePage (base ++ '/' :: dir) href := by
  have e : linkUrl base href = base ++ '/' :: href := by
    simp only [linkUrl]
    rw [if_neg (by rw [List.isPrefixOf_iff_prefix]; exact h0)]
    cases href with
    | nil => rfl
    | cons c cs =>
      have hc : c ≠ '/' := fun hh => h1 cs (by rw [hh])
      simp [lstripSlash, List.dropWhile_cons, hc]
  refine ⟨e, ?_⟩
  rw [e, besidePage]
  intro hc
  have := congrArg List.length hc
  simp at this
  have : dir.length ≠ 0 := by simpa using hd
  omega

example : linkUrl t!"https://h" t!"demo-1.0.zip" = t!"https://h/demo-1.0.zip" := rfl

/-- C71: absolute addresses and addresses from the root of the host are kept. -/
theorem simple_absolute_link (base r : Text) :
    linkUrl base (t!"http" ++ r) = t!"http" ++ r ∧
      ((∀ q, r ≠ '/' :: q) → linkUrl base ('/' :: r) = base ++ '/' :: r) := by
  constructor
  · simp [linkUrl, List.isPrefixOf]
  · intro h
    have : lstripSlash ('/' :: r) = r := by
      cases r with
      | nil => rfl
      | cons c cs =>
        have hc : c ≠ '/' := fun hh => h cs (by rw [hh])
        simp [lstripSlash, List.dropWhile_cons, hc]
    simp [linkUrl, List.isPrefixOf, this]

/-- One link of a page. -/
def linkTo (href text : Text) : List Ev := [.start t!"a" [(t!"href", some href)], .data text, .close t!"a"]

/-- C71 fails: two files of the same version, spelled `1.0` and `1.0.0`, end up in two packages. -/
theorem simple_same_version_violated (env : UrlEnv) :
    ∃ page ps, (simpleMatch env t!"https://h" [] t!"demo" .all page).1 = .ok ps ∧ ps.length = 2 ∧
      ∀ p ∈ ps, ∀ q ∈ ps, p.version.eqv q.version = true := by
  refine ⟨linkTo t!"/a" t!"demo-1.0-py3-none-any.whl" ++ linkTo t!"/b" t!"demo-1.0.0.tar.gz", _, rfl, rfl, ?_⟩
  intro p hp q hq
  have h1 : p.version = .std { release := [1, 0] } ∨ p.version = .std { release := [1, 0, 0] } := by
    rcases hp with _ | ⟨_, _ | ⟨_, h⟩⟩
    · exact Or.inl rfl
    · exact Or.inr rfl
    · cases h
  have h2 : q.version = .std { release := [1, 0] } ∨ q.version = .std { release := [1, 0, 0] } := by
    rcases hq with _ | ⟨_, _ | ⟨_, h⟩⟩
    · exact Or.inl rfl
    · exact Or.inr rfl
    · cases h
  rcases h1 with h1 | h1 <;> rcases h2 with h2 | h2 <;> rw [h1, h2] <;> decide

theorem keyed_bad : ∀ (as : List Art) (a : Art) (e : IErr), a ∈ as → extractVersion a.file = .error e →
    ∃ e', keyed as = .error e' := by
  intro as
  induction as with
  | nil => intro a e h; simp at h
  | cons b as ih =>
    intro a e h he
    simp only [keyed]
    rcases List.mem_cons.1 h with rfl | h
    · rw [he]; exact ⟨e, rfl⟩
    · cases hb : extractVersion b.file with
      | error e' => exact ⟨e', rfl⟩
      | ok v =>
        obtain ⟨e', h'⟩ := ih a e h he
        exact ⟨e', by simp only [h']⟩

/-- C71 fails: one wheel on a page whose name has no dash makes every request for the package fail, whatever else
the page offers. -/
theorem simple_one_bad_file_violated (env : UrlEnv) (base dep : Text) (spec : VSpec) (page : List Ev)
    (as : List Art) (a : Art) (r : Text) (hf : feed env base none page = .ok as) (ha : a ∈ as)
    (hr : a.file = r ++ t!".whl") (hd : '-' ∉ r) :
    ∃ e, (simpleMatch env base [] dep spec page).1 = .error e := by
  have he : extractVersion a.file = .error .index := by
    have hw : Coll.withoutSuffix (r ++ t!".whl") t!".whl" = r := (without_suffix_partial _ _ (by simp)).1 _ rfl
    simp only [extractVersion, hr, (endswithAny_append r).1, hw, Tags.splitOn_one '-' r hd, if_true]
    rfl
  obtain ⟨e, hk⟩ := keyed_bad as a .index ha he
  refine ⟨e, ?_⟩
  simp only [simpleMatch, Dict.get, Option.filter_none, packagesOf, hf, hk]

example (env : UrlEnv) : ∃ as a, feed env t!"https://h" none (linkTo t!"/a" t!"demo.whl") = .ok as ∧ a ∈ as ∧
    a.file = t!"demo" ++ t!".whl" := ⟨_, _, rfl, .head _, rfl⟩

/-! ### PyPI -/

/-- A file of a release counts: not yanked, a wheel or a source distribution, and it has a name. -/
def Counts (r : Rel) : Prop :=
  r.yanked = false ∧ (r.kind = some t!"sdist" ∨ r.kind = some t!"bdist_wheel") ∧ ∃ f, r.file = some f ∧ f ≠ []

instance (r : Rel) : Decidable (Counts r) :=
  decidable_of_iff (r.yanked = false ∧ (r.kind = some t!"sdist" ∨ r.kind = some t!"bdist_wheel") ∧
    (r.file.getD []) ≠ []) (by
    unfold Counts
    cases r.file with
    | none => simp
    | some f => simp)

theorem relArtifacts_ok (env : UrlEnv) : ∀ (rs : List Rel) (as : List Art), relArtifacts env rs = .ok as →
    List.Forall₂ (fun r a => r.file = some a.file ∧ a.url = r.url ∧ readRequires env r.requires = .ok a.requires)
      (rs.filter (fun r => decide (Counts r))) as := by
  intro rs
  induction rs with
  | nil => intro as h; simp only [relArtifacts, Except.ok.injEq] at h; subst h; exact .nil
  | cons r rs ih =>
    intro as h
    simp only [relArtifacts] at h
    by_cases hr : relevant r = true
    · rw [if_pos hr] at h
      have hr' : r.yanked = false ∧ (r.kind = some t!"sdist" ∨ r.kind = some t!"bdist_wheel") := by
        simpa [relevant] using hr
      unfold createArtifact at h
      rcases hfile : r.file with _ | _ | ⟨c, cs⟩
      · rw [hfile] at h
        have hc : ¬ Counts r := by rintro ⟨_, _, f, hf, _⟩; rw [hfile] at hf; simp at hf
        simp only [List.filter_cons, hc, decide_false]
        exact ih as h
      · rw [hfile] at h
        have hc : ¬ Counts r := by
          rintro ⟨_, _, f, hf, hne⟩; rw [hfile] at hf; simp at hf; exact hne hf
        simp only [List.filter_cons, hc, decide_false]
        exact ih as h
      · rw [hfile] at h
        have hc : Counts r := ⟨hr'.1, hr'.2, _, hfile, by simp⟩
        simp only at h
        cases hq : readRequires env r.requires with
        | error e => rw [hq] at h; simp at h
        | ok q =>
          rw [hq] at h
          simp only at h
          cases ht : relArtifacts env rs with
          | error e => rw [ht] at h; simp at h
          | ok bs =>
            rw [ht] at h
            simp only [Except.ok.injEq] at h; subst h
            simp only [List.filter_cons, hc, decide_true, if_true]
            exact .cons ⟨hfile, rfl, hq⟩ (ih bs ht)
    · rw [if_neg hr] at h
      have hc : ¬ Counts r := by
        rintro ⟨h1, h2, _⟩
        apply hr
        simp [relevant, h1, h2]
      simp only [List.filter_cons, hc, decide_false]
      exact ih as h

theorem pypiLoop_mem (env : UrlEnv) (dep n : Text) (spec : VSpec) (hn : descriptorName dep = some n) :
    ∀ (rels : List (Text × List Rel)) (ps : List Pkg), pypiLoop env dep spec rels = .ok ps →
    ∀ p, p ∈ ps ↔ ∃ vt rs as, (vt, rs) ∈ rels ∧ relArtifacts env rs = .ok as ∧ as ≠ [] ∧
      spec.allows (parseVersion env vt) = true ∧ p = ⟨n, parseVersion env vt, as⟩ := by
  intro rels
  induction rels with
  | nil =>
    intro ps h p
    simp only [pypiLoop, Except.ok.injEq] at h; subst h
    simp
  | cons x rels ih =>
    intro ps h p
    obtain ⟨vt, rs⟩ := x
    simp only [pypiLoop] at h
    cases ha : relArtifacts env rs with
    | error e => rw [ha] at h; simp at h
    | ok as =>
      rw [ha] at h
      have skip : ∀ qs, pypiLoop env dep spec rels = .ok qs → (as = [] ∨ spec.allows (parseVersion env vt) ≠ true) →
          (p ∈ qs ↔ ∃ vt' rs' as', (vt', rs') ∈ (vt, rs) :: rels ∧ relArtifacts env rs' = .ok as' ∧ as' ≠ [] ∧
            spec.allows (parseVersion env vt') = true ∧ p = ⟨n, parseVersion env vt', as'⟩) := by
        intro qs hqs hs
        rw [ih qs hqs p]
        constructor
        · rintro ⟨v, r, a, hm, hrest⟩
          exact ⟨v, r, a, List.mem_cons_of_mem _ hm, hrest⟩
        · rintro ⟨v, r, a, hm, h1, h2, h3, h4⟩
          rcases List.mem_cons.1 hm with he | hm
          · simp only [Prod.mk.injEq] at he
            obtain ⟨rfl, rfl⟩ := he
            rw [ha] at h1
            simp only [Except.ok.injEq] at h1; subst h1
            rcases hs with hs | hs
            · exact absurd hs h2
            · exact absurd h3 hs
          · exact ⟨v, r, a, hm, h1, h2, h3, h4⟩
      cases as with
      | nil => exact skip ps h (Or.inl rfl)
      | cons a as =>
        simp only at h
        by_cases hall : spec.allows (parseVersion env vt) = true
        · rw [if_pos hall, hn] at h
          simp only at h
          cases hl : pypiLoop env dep spec rels with
          | error e => rw [hl] at h; simp at h
          | ok qs =>
            rw [hl] at h
            simp only [Except.ok.injEq] at h; subst h
            rw [List.mem_cons, ih qs hl p]
            constructor
            · rintro (rfl | ⟨v, r, b, hm, hrest⟩)
              · exact ⟨vt, rs, a :: as, List.mem_cons_self .., ha, by simp, hall, rfl⟩
              · exact ⟨v, r, b, List.mem_cons_of_mem _ hm, hrest⟩
            · rintro ⟨v, r, b, hm, h1, h2, h3, h4⟩
              rcases List.mem_cons.1 hm with he | hm
              · simp only [Prod.mk.injEq] at he
                obtain ⟨rfl, rfl⟩ := he
                rw [ha] at h1
                simp only [Except.ok.injEq] at h1; subst h1
                exact Or.inl h4
              · exact Or.inr ⟨v, r, b, hm, h1, h2, h3, h4⟩
        · rw [if_neg hall] at h
          exact skip ps h (Or.inr hall)

/-- C71: what the PyPI repository answers: for every release that the request allows and that has a file which is
not yanked, is a wheel or a source distribution and has a name, one package with exactly these files in the order
of the index; and nothing else. -/
theorem pypi_match_exact (env : UrlEnv) (dep n : Text) (spec : VSpec) (rels : List (Text × List Rel)) (ps : List Pkg)
    (hn : descriptorName dep = some n) (h : pypiMatch env dep spec rels = .ok ps) (p : Pkg) :
    (p ∈ ps → ∃ vt rs, (vt, rs) ∈ rels ∧ spec.allows (parseVersion env vt) = true ∧ p.name = n ∧
      p.version = parseVersion env vt ∧ p.artifacts ≠ [] ∧
      List.Forall₂ (fun r a => r.file = some a.file ∧ a.url = r.url ∧ PythonNeed env r.requires a.requires)
        (rs.filter (fun r => decide (Counts r))) p.artifacts) ∧
    (∀ vt rs r, (vt, rs) ∈ rels → spec.allows (parseVersion env vt) = true → r ∈ rs → Counts r →
      ∃ q ∈ ps, q.name = n ∧ q.version = parseVersion env vt ∧ ∃ a ∈ q.artifacts, r.file = some a.file) := by
  simp only [pypiMatch] at h
  cases hl : pypiLoop env dep spec rels with
  | error e => rw [hl] at h; simp at h
  | ok qs =>
    rw [hl] at h
    simp only [Except.ok.injEq] at h; subst h
    have hm := pypiLoop_mem env dep n spec hn rels qs hl
    constructor
    · intro hp
      rw [sortDown_mem, hm] at hp
      obtain ⟨vt, rs, as, h1, h2, h3, h4, rfl⟩ := hp
      exact ⟨vt, rs, h1, h4, rfl, rfl, h3,
        forall₂_imp (fun _ _ x => ⟨x.1, x.2.1, (readRequires_iff _ _ _).1 x.2.2⟩) (relArtifacts_ok env rs as h2)⟩
    · intro vt rs r hr hall hrs hc
      -- the loop did not fail, so the files of every release could be read
      have hread : ∀ (l : List (Text × List Rel)) (out : List Pkg), pypiLoop env dep spec l = .ok out →
          ∀ x ∈ l, ∃ as, relArtifacts env x.2 = .ok as := by
        intro l
        induction l with
        | nil => intro out _ x hx; simp at hx
        | cons y l ih =>
          intro out ho x hx
          obtain ⟨w, ws⟩ := y
          simp only [pypiLoop] at ho
          cases hw : relArtifacts env ws with
          | error e => rw [hw] at ho; simp at ho
          | ok as =>
            rw [hw] at ho
            rcases List.mem_cons.1 hx with rfl | hx
            · exact ⟨as, hw⟩
            · cases as with
              | nil => exact ih out ho x hx
              | cons a as =>
                simp only [hn] at ho
                split at ho
                · cases hl2 : pypiLoop env dep spec l with
                  | error e => rw [hl2] at ho; simp at ho
                  | ok out2 => exact ih out2 hl2 x hx
                · exact ih out ho x hx
      obtain ⟨as, has⟩ := hread rels qs hl (vt, rs) hr
      have hf := relArtifacts_ok env rs as has
      have hrf : r ∈ rs.filter (fun r => decide (Counts r)) := List.mem_filter.2 ⟨hrs, by simpa using hc⟩
      have : ∃ a ∈ as, r.file = some a.file := by
        clear hread hm hl hn has
        generalize rs.filter (fun r => decide (Counts r)) = l at hf hrf
        induction hf with
        | nil => simp at hrf
        | cons hx _ ih =>
          rcases List.mem_cons.1 hrf with rfl | hrf
          · exact ⟨_, List.mem_cons_self .., hx.1⟩
          · obtain ⟨a, ha, hb⟩ := ih hrf
            exact ⟨a, List.mem_cons_of_mem _ ha, hb⟩
      obtain ⟨a, ha, hb⟩ := this
      refine ⟨⟨n, parseVersion env vt, as⟩, (sortDown_mem qs _).2 ((hm _).2 ⟨vt, rs, as, hr, has, ?_, hall, rfl⟩), rfl, rfl, a, ha, hb⟩
      intro hc; rw [hc] at ha; simp at ha

/-- C71: the answer of PyPI is sorted, newest first. -/
theorem pypi_match_order_partial (env : UrlEnv) (dep : Text) (spec : VSpec) (rels : List (Text × List Rel))
    (ps : List Pkg) (h : pypiMatch env dep spec rels = .ok ps) (hl : ∀ p ∈ ps, NoLabel p.version) :
    ps.Pairwise (fun a b => a.version.lt b.version = false) := by
  simp only [pypiMatch] at h
  cases hq : pypiLoop env dep spec rels with
  | error e => rw [hq] at h; simp at h
  | ok qs =>
    rw [hq] at h
    simp only [Except.ok.injEq] at h; subst h
    exact sortDown_sorted qs (fun p hp => hl p ((sortDown_mem qs p).2 hp))

/-- A source distribution on PyPI. -/
def sdistRel (f : Text) : Rel := { kind := some t!"sdist", file := some f, url := t!"https://h/" ++ f }

example (env : UrlEnv) : ∃ ps, pypiMatch env t!"demo" .all [(t!"1.0", [sdistRel t!"demo-1.0.zip"]),
    (t!"2.0", [sdistRel t!"demo-2.0.zip"]), (t!"3.0", [{ sdistRel t!"demo-3.0.zip" with yanked := true }])] = .ok ps ∧
    ps.map (·.version) = [.std { release := [2, 0] }, .std { release := [1, 0] }] := ⟨_, rfl, rfl⟩

/-- C71 fails: two releases whose versions are not PEP 440 versions are offered under one version that is neither of
the two. -/
theorem pypi_odd_versions_violated (env : UrlEnv) :
    ∃ ps, pypiMatch env t!"pytz" .all [(t!"2004d", [sdistRel t!"pytz-2004d.zip"]), (t!"2004e", [sdistRel t!"pytz-2004e.zip"])] = .ok ps ∧
      ps.map (·.version) = [.std { release := [2004] }, .std { release := [2004] }] := ⟨_, rfl, rfl⟩

/-- C71: the answer fails only if the name is not a package name or a python requirement cannot be parsed. -/
theorem pypi_match_total (env : UrlEnv) (dep n : Text) (spec : VSpec) (rels : List (Text × List Rel))
    (hn : descriptorName dep = some n)
    (h : ∀ x ∈ rels, ∀ r ∈ x.2, Counts r → ∃ q, PythonNeed env r.requires q) :
    ∃ ps, pypiMatch env dep spec rels = .ok ps := by
  have h1 : ∀ rs : List Rel, (∀ r ∈ rs, Counts r → ∃ q, readRequires env r.requires = .ok q) →
      ∃ as, relArtifacts env rs = .ok as := by
    intro rs
    induction rs with
    | nil => intro _; exact ⟨[], rfl⟩
    | cons r rs ih =>
      intro hr
      obtain ⟨as, has⟩ := ih (fun x hx => hr x (List.mem_cons_of_mem _ hx))
      simp only [relArtifacts]
      by_cases hrel : relevant r = true
      · rw [if_pos hrel]
        have hr' : r.yanked = false ∧ (r.kind = some t!"sdist" ∨ r.kind = some t!"bdist_wheel") := by
          simpa [relevant] using hrel
        unfold createArtifact
        rcases hfile : r.file with _ | _ | ⟨c, cs⟩
        · exact ⟨as, has⟩
        · exact ⟨as, has⟩
        · obtain ⟨q, hq⟩ := hr r (List.mem_cons_self ..) ⟨hr'.1, hr'.2, _, hfile, by simp⟩
          exact ⟨_, by simp only [hq, has]; rfl⟩
      · rw [if_neg hrel]; exact ⟨as, has⟩
  have h2 : ∃ ps, pypiLoop env dep spec rels = .ok ps := by
    induction rels with
    | nil => exact ⟨[], rfl⟩
    | cons x rels ih =>
      obtain ⟨vt, rs⟩ := x
      obtain ⟨ps, hps⟩ := ih (fun y hy => h y (List.mem_cons_of_mem _ hy))
      obtain ⟨as, has⟩ := h1 rs (fun r hr hc => (h (vt, rs) (List.mem_cons_self ..) r hr hc).imp fun _ => (readRequires_iff _ _ _).2)
      simp only [pypiLoop, has, hn, hps]
      cases as with
      | nil => exact ⟨ps, rfl⟩
      | cons a as =>
        simp only
        split <;> exact ⟨_, rfl⟩
  obtain ⟨ps, hps⟩ := h2
  exact ⟨sortDown ps, by simp only [pypiMatch, hps]⟩

/-- C71: the answer of a simple repository fails only if the name is not a package name, a python requirement
cannot be parsed or a file name does not carry a version. -/
theorem simple_match_total (env : UrlEnv) (base dep n : Text) (spec : VSpec) (page : List Ev)
    (hn : descriptorName dep = some n)
    (hr : ∀ tag attrs, Ev.start tag attrs ∈ page →
      ∃ r, PythonNeed env (attrValue attrs t!"data-requires-python") r)
    (hf : ∀ l ∈ fileLinks page, ∃ v, FileOf v l.2) :
    ∃ ps, (simpleMatch env base [] dep spec page).1 = .ok ps := by
  obtain ⟨as, has⟩ := simple_links_readable env base page hr
  have hall := simple_links env base page as has
  have hv : ∀ a ∈ as, ∃ v, extractVersion a.file = .ok v := by
    clear has hr
    generalize fileLinks page = l at hf hall
    induction hall with
    | nil => intro a ha; simp at ha
    | cons hx _ ih =>
      intro a ha
      rcases List.mem_cons.1 ha with rfl | ha
      · obtain ⟨v, hv⟩ := hf _ (List.mem_cons_self ..)
        exact ⟨v, by rw [hx.1]; exact simple_file_version v _ hv⟩
      · exact ih (fun x hx => hf x (List.mem_cons_of_mem _ hx)) a ha
  obtain ⟨ks, hk⟩ := keyed_total as hv
  have hd : ∃ ps, describe env dep (Coll.groupby ks (·.1)) = .ok ps := by
    unfold describe
    rw [hn]
    split <;> exact ⟨_, rfl⟩
  obtain ⟨ps, hps⟩ := hd
  refine ⟨sortDown (ps.filter (fun p => spec.allows p.version)), ?_⟩
  simp only [simpleMatch, Dict.get, Option.filter_none, packagesOf, has, hk, hps]

/-! ### downloads -/

/-- C71: a file from PyPI is used only if its sha256 is the one listed; if none is listed but other digests are, if
the first of them fits. -/
theorem pypi_download_checked {D : Type} (digests : Dict Text Text) (valid : Text → Text → Bool) (d e : D)
    (h : pypiRetrieve (some digests) valid d = .ok e) :
    e = d ∧ (∀ x, Dict.get digests t!"sha256" = some x → valid t!"sha256" x = true) ∧
    (Dict.get digests t!"sha256" = none → ∀ k v rest, digests = (k, v) :: rest → valid k v = true) := by
  unfold pypiRetrieve at h
  rcases digests with _ | ⟨⟨k, v⟩, rest⟩
  · simp only [Except.ok.injEq] at h
    exact ⟨h.symm, by simp [Dict.get], by simp⟩
  · simp only at h
    cases hg : Dict.get ((k, v) :: rest) t!"sha256" with
    | some x =>
      rw [hg] at h
      simp only at h
      split at h
      · rename_i hv
        simp only [Except.ok.injEq] at h
        refine ⟨h.symm, ?_, by simp⟩
        intro y hy
        simp only [Option.some.injEq] at hy; subst hy; exact hv
      · simp at h
    | none =>
      rw [hg] at h
      simp only at h
      split at h
      · rename_i hv
        simp only [Except.ok.injEq] at h
        refine ⟨h.symm, by simp, ?_⟩
        intro _ k' v' r' he
        simp only [List.cons.injEq, Prod.mk.injEq] at he
        rw [← he.1.1, ← he.1.2]; exact hv
      · simp at h

/-- C71: a file whose link carries a hash is used only if the hash fits. -/
theorem simple_download_checked {D : Type} (f x : Text) (valid : Text → Text → Bool) (d e : D) (hf : f ≠ [])
    (hx : x ≠ []) (he : '=' ∉ f) (h : simpleRetrieve (f ++ '=' :: x) valid d = .ok e) : e = d ∧ valid f x = true := by
  have hp : partitionEq (f ++ '=' :: x) = (f, x) := by
    have h1 : ∀ (f : Text), '=' ∉ f → List.takeWhile (fun c => c != '=') (f ++ '=' :: x) = f ∧
        List.dropWhile (fun c => c != '=') (f ++ '=' :: x) = '=' :: x := by
      intro f hf
      induction f with
      | nil => simp
      | cons c cs ih =>
        have hc : c ≠ '=' := fun e => hf (by simp [e])
        have := ih (fun hm => hf (List.mem_cons_of_mem _ hm))
        simp [List.takeWhile_cons, List.dropWhile_cons, hc, this.1, this.2]
    simp [partitionEq, h1 f he]
  simp only [simpleRetrieve, hp] at h
  split at h
  · rename_i hv
    simp only [Except.ok.injEq] at h
    refine ⟨h.symm, ?_⟩
    simpa [hf, hx] using hv
  · simp at h

/-- C71 fails: without a hash in the link, or with only the name of the function, nothing is checked. -/
theorem simple_download_unchecked {D : Type} (f : Text) (valid : Text → Text → Bool) (d : D) (he : '=' ∉ f) :
    simpleRetrieve f valid d = .ok d := by
  have h2 : (List.dropWhile (fun c => c != '=') f) = [] := by
    induction f with
    | nil => rfl
    | cons c cs ih =>
      have hc : c ≠ '=' := fun e => he (by simp [e])
      simp [List.dropWhile_cons, hc, ih (fun hm => he (List.mem_cons_of_mem _ hm))]
  simp [simpleRetrieve, partitionEq, h2]

end Index
end Pkm
