import Verif.VersionText.Parsed
import Verif.Specifier.Props
set_option linter.unusedVariables false
set_option linter.unusedSimpArgs false
/-
The clauses of a specifier: their text, what they mean, and the clause parser run on their text.
-/
namespace Pkm
open PS Spec VSpec

namespace Spec

/-- The clauses of PEP 440 over standard versions. -/
inductive Clause where
  | ge (v : SV) | gt (v : SV) | le (v : SV) | lt (v : SV)
  | eq (v : SV) | ne (v : SV)
  | eqStar (v : SV) | neStar (v : SV)
  | tilde (v : SV)

/-- How a clause is written. -/
def Clause.text : Clause → Text
  | .ge v => '>' :: '=' :: v.show
  | .gt v => '>' :: v.show
  | .le v => '<' :: '=' :: v.show
  | .lt v => '<' :: v.show
  | .eq v => '=' :: '=' :: v.show
  | .ne v => '!' :: '=' :: v.show
  | .eqStar v => '=' :: '=' :: (v.show ++ ['.', '*'])
  | .neStar v => '!' :: '=' :: (v.show ++ ['.', '*'])
  | .tilde v => '~' :: '=' :: v.show

def Clause.version : Clause → SV
  | .ge v | .gt v | .le v | .lt v | .eq v | .ne v | .eqStar v | .neStar v | .tilde v => v

/-- A final release without local label. -/
def Final (w : SV) : Prop := Candidate w ∧ w.pre = Option.none ∧ w.dev = Option.none

/-- `w` has the epoch of `v` and agrees with it in the first `n` release components. -/
def SamePrefix (n : Nat) (v w : SV) : Prop :=
  w.epoch.getD 0 = v.epoch.getD 0 ∧ ∀ i, i < n → relAt w.release i = relAt v.release i

/-- Clauses that are well formed: versions in normal form without local label and without a written
`0!`; `~=` needs two components, `.*` a version without suffixes. -/
def Clause.Wf (c : Clause) : Prop :=
  Printable c.version ∧ Plain c.version ∧
  match c with
  | .eqStar v | .neStar v => Final v
  | .tilde v => 2 ≤ v.release.length
  | _ => True

/-- PEP 440 reading of a clause for a final release `w`. -/
def Clause.Means (w : SV) : Clause → Prop
  | .ge v => v.lt w = true ∨ v.eqv w = true
  | .gt v => v.lt w = true
  | .le v => w.lt v = true ∨ w.eqv v = true
  | .lt v => w.lt v = true
  | .eq v => w.eqv v = true
  | .ne v => ¬ w.eqv v = true
  | .eqStar v => SamePrefix v.release.length v w
  | .neStar v => ¬ SamePrefix v.release.length v w
  | .tilde v => (v.lt w = true ∨ v.eqv w = true) ∧ SamePrefix (v.release.length - 1) v w

def Clause.isNe : Clause → Bool
  | .ne _ => true
  | _ => false

def Clause.isNeStar : Clause → Bool
  | .neStar _ => true
  | _ => false

end Spec

/-! ### arithmetic of the upper ends -/

theorem incLast_length (r : List Nat) : (incLast r).length = r.length := by
  induction r with
  | nil => rfl
  | cons n ns ih =>
    cases ns with
    | nil => rfl
    | cons m ms => simp [incLast] at ih ⊢; exact ih

theorem incPenult_length (r : List Nat) : (incPenult r).length = r.length := by
  induction r with
  | nil => rfl
  | cons n ns ih =>
    cases ns with
    | nil => rfl
    | cons m ms =>
      cases ms with
      | nil => rfl
      | cons k ks => simp [incPenult] at ih ⊢; exact ih

theorem relAt_incLast (r : List Nat) (i : Nat) :
    relAt (incLast r) i = if i + 1 = r.length then relAt r i + 1 else relAt r i := by
  induction r generalizing i with
  | nil => simp [incLast, relAt]
  | cons n ns ih =>
    cases ns with
    | nil =>
      cases i with
      | zero => simp [incLast, relAt]
      | succ i => simp [incLast, relAt]
    | cons m ms =>
      cases i with
      | zero => simp [incLast, relAt]
      | succ i =>
        have := ih i
        simp [incLast, relAt] at this ⊢
        exact this

theorem relAt_incPenult (r : List Nat) (i : Nat) (hr : 2 ≤ r.length) :
    relAt (incPenult r) i = if i + 2 = r.length then relAt r i + 1 else
      if i + 1 = r.length then 0 else relAt r i := by
  induction r generalizing i with
  | nil => simp at hr
  | cons n ns ih =>
    cases ns with
    | nil => simp at hr
    | cons m ms =>
      cases ms with
      | nil =>
        cases i with
        | zero => simp [incPenult, relAt]
        | succ i =>
          cases i with
          | zero => simp [incPenult, relAt]
          | succ i => simp [incPenult, relAt]
      | cons k ks =>
        cases i with
        | zero => simp [incPenult, relAt]
        | succ i =>
          have := ih i (by simp)
          simp [incPenult, relAt] at this ⊢
          exact this

theorem relAt_beyond (r : List Nat) (i : Nat) (h : r.length ≤ i) : relAt r i = 0 := by
  simp [relAt, List.getD_eq_getElem?_getD, List.getElem?_eq_none h]

theorem prefix_incLast (r s : List Nat) (hr : r ≠ []) :
    (¬ RelBefore s r ∧ RelBefore s (incLast r)) ↔ ∀ i, i < r.length → relAt s i = relAt r i := by
  have hl : 0 < r.length := List.length_pos_iff.mpr hr
  constructor
  · rintro ⟨h1, k, h2, h3⟩
    have hk : k + 1 = r.length := by
      apply Classical.byContradiction
      intro hk
      rw [relAt_incLast, if_neg hk] at h3
      by_cases hkl : k < r.length
      · apply h1
        refine ⟨k, fun j hj => ?_, h3⟩
        rw [h2 j hj, relAt_incLast, if_neg (by omega)]
      · rw [relAt_beyond r k (by omega)] at h3; omega
    intro i hi
    by_cases hik : i = k
    · subst hik
      rw [relAt_incLast, if_pos hk] at h3
      apply Classical.byContradiction
      intro hne
      apply h1
      refine ⟨i, fun j hj => ?_, by omega⟩
      rw [h2 j hj, relAt_incLast, if_neg (by omega)]
    · rw [h2 i (by omega), relAt_incLast, if_neg (by omega)]
  · intro h
    constructor
    · rintro ⟨k, _, h3⟩
      by_cases hk : k < r.length
      · rw [h k hk] at h3; omega
      · rw [relAt_beyond r k (by omega)] at h3; omega
    · refine ⟨r.length - 1, fun j hj => ?_, ?_⟩
      · rw [h j (by omega), relAt_incLast, if_neg (by omega)]
      · rw [h _ (by omega), relAt_incLast, if_pos (by omega)]; omega

theorem prefix_incPenult (r s : List Nat) (hr : 2 ≤ r.length) (h1 : ¬ RelBefore s r) :
    RelBefore s (incPenult r) ↔ ∀ i, i < r.length - 1 → relAt s i = relAt r i := by
  constructor
  · rintro ⟨k, h2, h3⟩
    have hk : k + 2 = r.length := by
      apply Classical.byContradiction
      intro hk
      rw [relAt_incPenult r k hr, if_neg hk] at h3
      by_cases hk1 : k + 1 = r.length
      · simp [hk1] at h3
      · rw [if_neg hk1] at h3
        by_cases hkl : k < r.length
        · apply h1
          refine ⟨k, fun j hj => ?_, h3⟩
          rw [h2 j hj, relAt_incPenult r j hr, if_neg (by omega), if_neg (by omega)]
        · rw [relAt_beyond r k (by omega)] at h3; omega
    intro i hi
    by_cases hik : i = k
    · subst hik
      rw [relAt_incPenult r i hr, if_pos hk] at h3
      apply Classical.byContradiction
      intro hne
      apply h1
      refine ⟨i, fun j hj => ?_, by omega⟩
      rw [h2 j hj, relAt_incPenult r j hr, if_neg (by omega), if_neg (by omega)]
    · rw [h2 i (by omega), relAt_incPenult r i hr, if_neg (by omega), if_neg (by omega)]
  · intro h
    refine ⟨r.length - 2, fun j hj => ?_, ?_⟩
    · rw [h j (by omega), relAt_incPenult r j hr, if_neg (by omega), if_neg (by omega)]
    · rw [h _ (by omega), relAt_incPenult r _ hr, if_pos (by omega)]; omega

theorem relBefore_not_same {r s : List Nat} (h : RelBefore r s) : ¬ RelSame r s := by
  rintro hs
  obtain ⟨k, _, h3⟩ := h
  rw [hs k] at h3; omega

/-- Order of final releases. -/
theorem final_lt_iff (a b : SV) (ha : Final a) (hb : Final b) :
    a.lt b = true ↔ a.epoch.getD 0 < b.epoch.getD 0 ∨
      (a.epoch.getD 0 = b.epoch.getD 0 ∧ RelBefore a.release b.release) := by
  by_cases he : a.epoch.getD 0 = b.epoch.getD 0
  · by_cases hs : RelSame a.release b.release
    · have heq : a.eqv b = true := by
        rw [SV.eqv_iff]
        exact ⟨⟨he, hs, by rw [ha.2.1, hb.2.1], by rw [ha.1.2, hb.1.2], by rw [ha.2.2, hb.2.2]⟩,
          by rw [ha.1.1.2.2, hb.1.1.2.2]⟩
      have h1 : ¬ a.lt b = true := by
        intro h; rw [SV.eqv_stage.ne a b h] at heq; simp at heq
      have h2 : ¬ RelBefore a.release b.release := fun h => relBefore_not_same h hs
      simp [h1, h2, he]
    · rw [std_lt_by_release a b he hs]; simp [he]
  · rw [std_lt_by_epoch a b he]; simp [he]

theorem le_iff_not_lt (a b : SV) (ha : Plain a) (hb : Plain b) :
    (a.lt b = true ∨ a.eqv b = true) ↔ ¬ b.lt a = true := by
  obtain ⟨f, hf⟩ := ranks [a, b] (by simp; exact ⟨ha, hb⟩)
  have h1 := hf a b (by simp) (by simp)
  have h2 := hf b a (by simp) (by simp)
  simp [h1, h2]; omega

/-- A version below a final release cannot have a later release number. -/
theorem lt_of_relBefore (a b : SV) (he : a.epoch.getD 0 = b.epoch.getD 0)
    (h : RelBefore a.release b.release) : a.lt b = true :=
  (std_lt_by_release a b he (relBefore_not_same h)).mpr h

theorem starMax_final (v : SV) (h : Final v) : Final (starMax v) := by
  refine ⟨⟨⟨?_, h.1.1.2.1, h.1.1.2.2⟩, h.1.2⟩, h.2.1, h.2.2⟩
  intro e
  have := incLast_length v.release
  rw [show incLast v.release = [] from e] at this
  exact h.1.1.1 (List.length_eq_zero_iff.mp this.symm)

theorem tildeMax_final (v : SV) (h : Plain v) (h2 : 2 ≤ v.release.length) : Final (tildeMax v) := by
  refine ⟨⟨⟨?_, h.2.1, rfl⟩, rfl⟩, rfl, rfl⟩
  intro e
  have := incPenult_length v.release
  rw [show incPenult v.release = [] from e] at this
  simp at this; omega

theorem starMax_lt (v : SV) (h : Final v) : v.lt (starMax v) = true := by
  apply lt_of_relBefore v (starMax v) rfl
  exact ((prefix_incLast v.release v.release h.1.1.1).mpr (fun i _ => rfl)).2

theorem tildeMax_lt (v : SV) (h2 : 2 ≤ v.release.length) : v.lt (tildeMax v) = true := by
  apply lt_of_relBefore v (tildeMax v) rfl
  refine (prefix_incPenult v.release v.release h2 ?_).mpr (fun i _ => rfl)
  rintro ⟨k, _, h⟩; omega

/-- `==X.*` on final releases. -/
theorem star_prefix (v w : SV) (hv : Final v) (hw : Final w) :
    ((v.lt w = true ∨ v.eqv w = true) ∧ w.lt (starMax v) = true) ↔
      SamePrefix v.release.length v w := by
  rw [le_iff_not_lt v w hv.1.1 hw.1.1, final_lt_iff w v hw hv,
    final_lt_iff w (starMax v) hw (starMax_final v hv)]
  show _ ∧ (w.epoch.getD 0 < v.epoch.getD 0 ∨ (w.epoch.getD 0 = v.epoch.getD 0 ∧
    RelBefore w.release (incLast v.release))) ↔ _
  have := prefix_incLast v.release w.release hv.1.1.1
  unfold SamePrefix
  constructor
  · rintro ⟨h1, h2 | ⟨h2, h3⟩⟩
    · exact absurd (Or.inl h2) h1
    · exact ⟨h2, this.mp ⟨fun h => h1 (Or.inr ⟨h2, h⟩), h3⟩⟩
  · rintro ⟨h1, h2⟩
    have := this.mpr h2
    refine ⟨?_, Or.inr ⟨h1, this.2⟩⟩
    rintro (h | ⟨_, h⟩)
    · omega
    · exact this.1 h

/-- `~=v` on final releases. -/
theorem tilde_prefix (v w : SV) (hv : Plain v) (h2 : 2 ≤ v.release.length) (hw : Final w) :
    ((v.lt w = true ∨ v.eqv w = true) ∧ w.lt (tildeMax v) = true) ↔
      ((v.lt w = true ∨ v.eqv w = true) ∧ SamePrefix (v.release.length - 1) v w) := by
  apply and_congr_right
  intro h
  rw [le_iff_not_lt v w hv hw.1.1] at h
  rw [final_lt_iff w (tildeMax v) hw (tildeMax_final v hv h2)]
  show (w.epoch.getD 0 < v.epoch.getD 0 ∨ (w.epoch.getD 0 = v.epoch.getD 0 ∧
    RelBefore w.release (incPenult v.release))) ↔ _
  unfold SamePrefix
  have he : ¬ w.epoch.getD 0 < v.epoch.getD 0 := by
    intro hlt
    exact h ((std_lt_by_epoch w v (by omega)).mpr hlt)
  simp only [he, false_or]
  apply and_congr_right
  intro heq
  exact prefix_incPenult v.release w.release h2 (fun hb => h (lt_of_relBefore w v heq hb))

/-! ### the clause parser on clause texts -/

/-- The specifier a clause denotes. -/
def clauseBase : Clause → VSpec
  | .ge v => .range (some v) Option.none true false
  | .gt v => .range (some v) Option.none false false
  | .le v => .range Option.none (some v) false true
  | .lt v => .range Option.none (some v) false false
  | .eq v => .vmatch (.std v) true
  | .ne v => .vmatch (.std v) false
  | .eqStar v => .range (some v) (some (starMax v)) true false
  | .neStar v => .range (some v) (some (starMax v)) true false
  | .tilde v => .range (some v) (some (tildeMax v)) true false

/-- The specifier of a clause, given the inverse of the range of `!=X.*`. -/
def clauseSpec (c : Clause) : Except Err VSpec :=
  match c with
  | .neStar v => (clauseBase (.neStar v)).inverse
  | c => .ok (clauseBase c)

theorem base_rangeOk_star (v : SV) (h : Final v) :
    RangeOk (some v) (some (starMax v)) true false :=
  ⟨by simp; exact h.1.1, by simp; exact (starMax_final v h).1.1, by simp, by simp, by simp, by
    intro a b ha hb; simp at ha hb; subst ha hb; exact starMax_lt v h⟩

theorem base_rangeOk_tilde (v : SV) (h : Plain v) (h2 : 2 ≤ v.release.length) :
    RangeOk (some v) (some (tildeMax v)) true false :=
  ⟨by simp; exact h, by simp; exact (tildeMax_final v h h2).1.1, by simp, by simp, by simp, by
    intro a b ha hb; simp at ha hb; subst ha hb; exact tildeMax_lt v h2⟩

/-- The specifier of a well-formed clause has the PEP 440 meaning on final releases. -/
theorem clauseSpec_means (c : Clause) (hc : c.Wf) :
    ∃ s, clauseSpec c = .ok s ∧ (c.isNeStar = false → Conj s) ∧ (c.isNe = false → Region s) ∧
      ∀ w, Final w → (s.allows (.std w) = true ↔ c.Means w) := by
  obtain ⟨hp, hpl, hx⟩ := hc
  cases c with
  | ge v =>
    have hok := from_ok v true hpl
    refine ⟨_, rfl, fun _ => .block _ (.range _ _ _ _ hok), fun _ => .block _ (.range _ _ _ _ hok),
      fun w hw => ?_⟩
    simp only [clauseBase, allows]
    rw [rangeAllows_iff _ _ _ _ hok w hw.1]
    simp [AboveMin, BelowMax, Clause.Means]
  | gt v =>
    have hok := from_ok v false hpl
    refine ⟨_, rfl, fun _ => .block _ (.range _ _ _ _ hok), fun _ => .block _ (.range _ _ _ _ hok),
      fun w hw => ?_⟩
    simp only [clauseBase, allows]
    rw [rangeAllows_iff _ _ _ _ hok w hw.1]
    simp [AboveMin, BelowMax, Clause.Means]
  | le v =>
    have hok := upto_ok v true hpl
    refine ⟨_, rfl, fun _ => .block _ (.range _ _ _ _ hok), fun _ => .block _ (.range _ _ _ _ hok),
      fun w hw => ?_⟩
    simp only [clauseBase, allows]
    rw [rangeAllows_iff _ _ _ _ hok w hw.1]
    simp [AboveMin, BelowMax, Clause.Means, eqv_symm v w]
  | lt v =>
    have hok := upto_ok v false hpl
    refine ⟨_, rfl, fun _ => .block _ (.range _ _ _ _ hok), fun _ => .block _ (.range _ _ _ _ hok),
      fun w hw => ?_⟩
    simp only [clauseBase, allows]
    rw [rangeAllows_iff _ _ _ _ hok w hw.1]
    simp [AboveMin, BelowMax, Clause.Means]
  | eq v =>
    refine ⟨_, rfl, fun _ => .block _ (.one v hpl), fun _ => .block _ (.one v hpl), fun w hw => ?_⟩
    simp only [clauseBase, allows, Clause.Means]
    rw [matchAllows_std v w true hpl hw.1.1, eqv_symm]
    simp
  | ne v =>
    refine ⟨_, rfl, fun _ => .vmatch _ _ (fun s hs => by simp at hs; subst hs; exact hpl),
      fun h => by simp [Clause.isNe] at h, fun w hw => ?_⟩
    simp only [clauseBase, allows, Clause.Means]
    rw [matchAllows_std v w false hpl hw.1.1, eqv_symm]
    simp
  | eqStar v =>
    have hok := base_rangeOk_star v hx
    refine ⟨_, rfl, fun _ => .block _ (.range _ _ _ _ hok), fun _ => .block _ (.range _ _ _ _ hok),
      fun w hw => ?_⟩
    simp only [clauseBase, allows]
    rw [rangeAllows_iff _ _ _ _ hok w hw.1]
    simp only [Clause.Means]
    rw [← star_prefix v w hx hw]
    simp [AboveMin, BelowMax]
  | neStar v =>
    have hok := base_rangeOk_star v hx
    obtain ⟨r, hr, hreg, hex⟩ := inverse_exact_region_partial (clauseBase (.neStar v))
      ⟨.block _ (.range _ _ _ _ hok), fun p hp => by
        simp [clauseBase, pieces] at hp; subst hp; exact ⟨_, _, _, _, rfl⟩⟩
    refine ⟨r, hr, fun h => by simp [Clause.isNeStar] at h, fun _ => hreg, fun w hw => ?_⟩
    rw [hex w hw.1]
    simp only [clauseBase, allows]
    rw [rangeAllows_iff _ _ _ _ hok w hw.1]
    simp only [Clause.Means]
    rw [← star_prefix v w hx hw]
    simp [AboveMin, BelowMax]
  | tilde v =>
    have hok := base_rangeOk_tilde v hpl hx
    refine ⟨_, rfl, fun _ => .block _ (.range _ _ _ _ hok), fun _ => .block _ (.range _ _ _ _ hok),
      fun w hw => ?_⟩
    simp only [clauseBase, allows]
    rw [rangeAllows_iff _ _ _ _ hok w hw.1]
    simp only [Clause.Means]
    rw [← tilde_prefix v w hpl hx hw]
    simp [AboveMin, BelowMax]

theorem starRange_create (v M : SV) (h : v.lt M = true) :
    createRange (some v) (some M) true false = .ok (.range (some v) (some M) true false) := by
  have hne := SV.eqv_stage.ne v M h
  simp [createRange, optEq, mkRange, hne, h]

attribute [local irreducible] readVersion createRange SV.show

theorem readVersion_plain (v : SV) (hp : Printable v) (hpl : Plain v) (pv t : Text)
    (ht : t = [] ∨ (∃ c u, t = c :: u ∧ Sep c) ∨ ∃ u, t = '.' :: '*' :: u) :
    ∃ p, readVersion (PS.ws ⟨pv, v.show ++ t⟩) = some (v, p) ∧ p.rest = t := by
  have ht' : Tail v.loc t := by
    rcases ht with h | h | h
    · exact Or.inl h
    · exact Or.inr (Or.inl h)
    · obtain ⟨u, h⟩ := h
      exact Or.inr (Or.inr ⟨hpl.2.2, '*', u, h, Or.inl rfl⟩)
  obtain ⟨p, h1, h2, _⟩ := readVersion_show v hp pv t ht'
  obtain ⟨c, cs, hs, hc⟩ := show_first v hp t
  have hws : PS.ws ⟨pv, v.show ++ t⟩ = ⟨pv, v.show ++ t⟩ := by
    rw [hs]; exact ws_none _ _ (digit_not_space c hc)
  refine ⟨p, by rw [hws]; exact h1, h2 (fun l hl => ?_)⟩
  rw [hpl.2.2] at hl; simp at hl

theorem lit_dotstar (pv t : Text) (ht : t = [] ∨ ∃ c u, t = c :: u ∧ Sep c) :
    lit ['.', '*'] ⟨pv, t⟩ = Option.none := by
  apply lit_none_head
  intro d ds h
  rcases ht with rfl | ⟨_, u, rfl, _ | _⟩
  · simp at h
  · simp at h; rw [← h.1]; decide
  · simp at h; rw [← h.1]; decide

theorem ps_eta (p : PS) (t : Text) (h : p.rest = t) : p = ⟨p.prev, t⟩ := by
  cases p; simp at h; simp [h]

theorem createRange_point (v : SV) : createRange (some v) (some v) true true = .ok (.vmatch (.std v) true) := by
  unfold createRange; simp [optEq, SV.eqv_stage.refl v]

theorem readEquality_plain (v : SV) (hp : Printable v) (hpl : Plain v) (neg : Bool) (pv t : Text)
    (ht : t = [] ∨ ∃ c u, t = c :: u ∧ Sep c) :
    ∃ p, readEquality neg ⟨pv, v.show ++ t⟩ = .ok (.vmatch (.std v) (!neg), p) ∧ p.rest = t := by
  obtain ⟨p, h1, h2⟩ := readVersion_plain v hp hpl pv t
    (by rcases ht with h | h
        · exact Or.inl h
        · exact Or.inr (Or.inl h))
  have h3 : p.lit ['.', '*'] = Option.none := by rw [ps_eta p t h2]; exact lit_dotstar _ t ht
  have h4 := createRange_point v
  refine ⟨p, ?_, h2⟩
  unfold readEquality
  rw [h1]
  dsimp only
  rw [h3, h4]
  cases neg <;> rfl

theorem readEquality_star (v : SV) (hp : Printable v) (hf : Final v) (neg : Bool) (pv t : Text)
    (s : VSpec) (hs : (if neg then (clauseBase (.neStar v)).inverse else .ok (clauseBase (.eqStar v)))
      = .ok s) :
    ∃ p, readEquality neg ⟨pv, v.show ++ ('.' :: '*' :: t)⟩ = .ok (s, p) ∧ p.rest = t := by
  obtain ⟨p, h1, h2⟩ := readVersion_plain v hp hf.1.1 pv ('.' :: '*' :: t) (by simp)
  have h3 : p.lit ['.', '*'] = some ⟨'*' :: '.' :: p.prev, t⟩ := by
    rw [ps_eta p _ h2]; simp [lit, List.isPrefixOf, adv]
  refine ⟨⟨'*' :: '.' :: p.prev, t⟩, ?_, rfl⟩
  unfold readEquality
  rw [h1]
  dsimp only
  rw [h3, starRange_create v _ (starMax_lt v hf)]
  cases neg with
  | false =>
    have hs' : clauseBase (.eqStar v) = s := by simpa using hs
    subst hs'; rfl
  | true =>
    have hs' : (VSpec.range (some v) (some (starMax v)) true false).inverse = .ok s := hs
    simp [liftS, bind, Except.bind, pure, Except.pure, hs']

theorem readComparison_plain (v : SV) (hp : Printable v) (hpl : Plain v) (lo inc : Bool) (pv t : Text)
    (ht : t = [] ∨ ∃ c u, t = c :: u ∧ Sep c) :
    ∃ p, readComparison lo inc ⟨pv, v.show ++ t⟩ =
      .ok (if lo then .range (some v) Option.none inc false else .range Option.none (some v) false inc,
        p) ∧ p.rest = t := by
  obtain ⟨p, h1, h2⟩ := readVersion_plain v hp hpl pv t
    (by rcases ht with h | h
        · exact Or.inl h
        · exact Or.inr (Or.inl h))
  have h3 : p.lit ['.', '*'] = Option.none := by rw [ps_eta p t h2]; exact lit_dotstar _ t ht
  refine ⟨p, ?_, h2⟩
  have h4 : p.skipAny [['.', '*']] = p := by simp [skipAny, litAny, h3]
  unfold readComparison
  rw [h1]
  dsimp only
  rw [h4]
  cases lo with
  | false => simp [createRange_upto, liftS, bind, Except.bind, pure, Except.pure]
  | true => simp [createRange_from, liftS, bind, Except.bind, pure, Except.pure]

theorem readTilde_plain (v : SV) (hp : Printable v) (hpl : Plain v) (h2 : 2 ≤ v.release.length)
    (pv t : Text) (ht : t = [] ∨ ∃ c u, t = c :: u ∧ Sep c) :
    ∃ p, readTilde ⟨pv, v.show ++ t⟩ = .ok (clauseBase (.tilde v), p) ∧ p.rest = t := by
  obtain ⟨p, h1, h3⟩ := readVersion_plain v hp hpl pv t
    (by rcases ht with h | h
        · exact Or.inl h
        · exact Or.inr (Or.inl h))
  have h4 : ¬ v.release.length = 1 := by omega
  refine ⟨p, ?_, h3⟩
  unfold readTilde
  rw [h1]
  dsimp only
  rw [if_neg h4, starRange_create v _ (tildeMax_lt v h2)]
  rfl

/-- Steps of `readClause` on the first characters. -/
theorem ws_blank (b pv : Text) (hb : b = [] ∨ b = [' ']) (c : Char) (cs : Text)
    (hc : isSpace c = false) : PS.ws ⟨pv, b ++ (c :: cs)⟩ = ⟨b ++ pv, c :: cs⟩ := by
  rcases hb with rfl | rfl
  · exact ws_none _ _ hc
  · have : isSpace ' ' = true := by decide
    simp [PS.ws, untilP, this, hc]

/-- The clause parser on the text of a well-formed clause. -/
theorem readClause_text (env : UrlEnv) (c : Clause) (hc : c.Wf) (s : VSpec)
    (hs : clauseSpec c = .ok s) (b pv t : Text) (hb : b = [] ∨ b = [' '])
    (ht : t = [] ∨ ∃ c u, t = c :: u ∧ Sep c) :
    ∃ p, readClause env ⟨pv, b ++ (c.text ++ t)⟩ = .ok (s, p) ∧ p.rest = t := by
  obtain ⟨hp, hpl, hx⟩ := hc
  obtain ⟨d, ds, hd1, hd2⟩ := show_first c.version hp t
  obtain ⟨d', ds', hd1', hd2'⟩ := show_first c.version hp ('.' :: '*' :: t)
  have ne : ∀ k : Char, isDigit k = false → ¬ k = d := by
    intro k hk e; subst e; rw [hd2] at hk; simp at hk
  cases c with
  | ge v =>
    simp only [clauseSpec, Except.ok.injEq] at hs; subst hs
    have h := readComparison_plain v hp hpl true true ('=' :: '>' :: (b ++ pv)) t ht
    obtain ⟨p, h1, h2⟩ := h
    refine ⟨p, ?_, h2⟩
    simp only [readClause, Clause.text, List.cons_append, ws_blank b pv hb '>' _ (by decide)]
    simpa [lit, litAny, List.isPrefixOf, adv, clauseBase] using h1
  | gt v =>
    simp only [clauseSpec, Except.ok.injEq] at hs; subst hs
    obtain ⟨p, h1, h2⟩ := readComparison_plain v hp hpl true false ('>' :: (b ++ pv)) t ht
    refine ⟨p, ?_, h2⟩
    simp only [readClause, Clause.text, List.cons_append, ws_blank b pv hb '>' _ (by decide)]
    simp only [Clause.version] at hd1
    rw [hd1] at h1 ⊢
    simpa [lit, litAny, List.isPrefixOf, adv, clauseBase, ne '=' (by decide)] using h1
  | le v =>
    simp only [clauseSpec, Except.ok.injEq] at hs; subst hs
    obtain ⟨p, h1, h2⟩ := readComparison_plain v hp hpl false true ('=' :: '<' :: (b ++ pv)) t ht
    refine ⟨p, ?_, h2⟩
    simp only [readClause, Clause.text, List.cons_append, ws_blank b pv hb '<' _ (by decide)]
    simpa [lit, litAny, List.isPrefixOf, adv, clauseBase] using h1
  | lt v =>
    simp only [clauseSpec, Except.ok.injEq] at hs; subst hs
    obtain ⟨p, h1, h2⟩ := readComparison_plain v hp hpl false false ('<' :: (b ++ pv)) t ht
    refine ⟨p, ?_, h2⟩
    simp only [readClause, Clause.text, List.cons_append, ws_blank b pv hb '<' _ (by decide)]
    simp only [Clause.version] at hd1
    rw [hd1] at h1 ⊢
    simpa [lit, litAny, List.isPrefixOf, adv, clauseBase, ne '=' (by decide)] using h1
  | eq v =>
    simp only [clauseSpec, Except.ok.injEq] at hs; subst hs
    obtain ⟨p, h1, h2⟩ := readEquality_plain v hp hpl false ('=' :: '=' :: (b ++ pv)) t ht
    refine ⟨p, ?_, h2⟩
    simp only [readClause, Clause.text, List.cons_append, ws_blank b pv hb '=' _ (by decide)]
    simp only [Clause.version] at hd1
    rw [hd1] at h1 ⊢
    simpa [lit, litAny, List.isPrefixOf, adv, clauseBase, ne '=' (by decide)] using h1
  | ne v =>
    simp only [clauseSpec, Except.ok.injEq] at hs; subst hs
    obtain ⟨p, h1, h2⟩ := readEquality_plain v hp hpl true ('=' :: '!' :: (b ++ pv)) t ht
    refine ⟨p, ?_, h2⟩
    simp only [readClause, Clause.text, List.cons_append, ws_blank b pv hb '!' _ (by decide)]
    simpa [lit, litAny, List.isPrefixOf, adv, clauseBase] using h1
  | eqStar v =>
    obtain ⟨p, h1, h2⟩ := readEquality_star v hp hx false ('=' :: '=' :: (b ++ pv)) t s hs
    refine ⟨p, ?_, h2⟩
    simp only [readClause, Clause.text, List.cons_append, List.append_assoc,
      ws_blank b pv hb '=' _ (by decide)]
    simp only [Clause.version] at hd1'
    have ne' : ¬ '=' = d' := by
      intro e; subst e; exact absurd hd2' (by decide)
    simp only [List.nil_append]
    rw [hd1'] at h1 ⊢
    simpa [lit, litAny, List.isPrefixOf, adv, clauseBase, ne'] using h1
  | neStar v =>
    obtain ⟨p, h1, h2⟩ := readEquality_star v hp hx true ('=' :: '!' :: (b ++ pv)) t s hs
    refine ⟨p, ?_, h2⟩
    simp only [readClause, Clause.text, List.cons_append, List.append_assoc,
      ws_blank b pv hb '!' _ (by decide)]
    simpa [lit, litAny, List.isPrefixOf, adv, clauseBase] using h1
  | tilde v =>
    simp only [clauseSpec, Except.ok.injEq] at hs; subst hs
    obtain ⟨p, h1, h2⟩ := readTilde_plain v hp hpl hx ('=' :: '~' :: (b ++ pv)) t ht
    refine ⟨p, ?_, h2⟩
    simp only [readClause, Clause.text, List.cons_append, ws_blank b pv hb '~' _ (by decide)]
    simpa [lit, litAny, List.isPrefixOf, adv] using h1

/-! ### the loop over clauses -/

theorem text_first (c : Clause) : ∃ k ks, c.text = k :: ks ∧ isSpace k = false ∧ k ≠ '(' := by
  cases c <;> exact ⟨_, _, rfl, by decide, by decide⟩

theorem readClauses_text (env : UrlEnv) (cs : List Clause) :
    ∀ (ss : List VSpec) (acc r : VSpec) (f : Nat) (b pv t : Text), cs ≠ [] →
    (∀ c, c ∈ cs → c.Wf) → cs.map clauseSpec = ss.map .ok → interClauses acc ss = .ok r →
    (b = [] ∨ b = [' ']) → cs.length < f → (t = [] ∨ ∃ u, t = ';' :: u) →
    ∃ p, readClauses env false f acc ⟨pv, b ++ (joinText [',', ' '] (cs.map Clause.text) ++ t)⟩ =
      .ok (r, p) ∧ p.rest = t := by
  induction cs with
  | nil => intro ss acc r f b pv t h; exact absurd rfl h
  | cons c cs ih =>
    intro ss acc r f b pv t _ hwf hss hr hb hf ht
    cases ss with
    | nil => simp at hss
    | cons s ss =>
      simp only [List.map_cons, List.cons.injEq] at hss
      obtain ⟨hcs, hss⟩ := hss
      cases hi : acc.inter s with
      | error e => simp [interClauses, hi, bind, Except.bind] at hr
      | ok acc' =>
        have hr' : interClauses acc' ss = .ok r := by
          simpa [interClauses, hi, bind, Except.bind] using hr
        cases f with
        | zero => omega
        | succ f =>
          obtain ⟨k, ks, hk, hk1, hk2⟩ := text_first c
          cases cs with
          | nil =>
            cases ss with
            | cons s' ss' => simp at hss
            | nil =>
              simp only [interClauses, Except.ok.injEq] at hr'
              subst hr'
              have ht' : t = [] ∨ ∃ c u, t = c :: u ∧ Sep c := by
                rcases ht with h | ⟨u, h⟩
                · exact Or.inl h
                · exact Or.inr ⟨_, u, h, Sep.semi⟩
              obtain ⟨p, h1, h2⟩ := readClause_text env c (hwf c (by simp)) s hcs b pv t hb ht'
              have hpw : p.ws = p := by
                rw [ps_eta p t h2]
                rcases ht with rfl | ⟨u, rfl⟩
                · exact ws_none _ _ (by simp)
                · exact ws_none _ _ (by simp; decide)
              have hl : p.lit [','] = Option.none := by
                rw [ps_eta p t h2]
                rcases ht with rfl | ⟨u, rfl⟩ <;> simp [lit, List.isPrefixOf]
              refine ⟨p, ?_, h2⟩
              simp only [List.map_cons, List.map_nil, joinText, readClauses]
              have hne : ∃ x xs, b ++ (c.text ++ t) = x :: xs := by
                rcases hb with rfl | rfl <;> rw [hk] <;> exact ⟨_, _, rfl⟩
              obtain ⟨x, xs, hx⟩ := hne
              rw [hx] at h1 ⊢
              simp only [h1, hi, liftS, bind, Except.bind, hpw, hl]
              rcases ht with rfl | ⟨u, rfl⟩ <;> simp [h2]
          | cons c' cs' =>
            have htext : joinText [',', ' '] ((c :: c' :: cs').map Clause.text) ++ t =
                c.text ++ (',' :: ' ' :: (joinText [',', ' '] ((c' :: cs').map Clause.text) ++ t)) := by
              simp [joinText]
            obtain ⟨p, h1, h2⟩ := readClause_text env c (hwf c (by simp)) s hcs b pv
              (',' :: ' ' :: (joinText [',', ' '] ((c' :: cs').map Clause.text) ++ t)) hb
              (Or.inr ⟨_, _, rfl, Sep.comma⟩)
            have hpw : p.ws = p := by
              rw [ps_eta p _ h2]; exact ws_none _ _ (by simp; decide)
            have hl : p.lit [','] =
                some ⟨',' :: p.prev, ' ' :: (joinText [',', ' '] ((c' :: cs').map Clause.text) ++ t)⟩ := by
              rw [ps_eta p _ h2]; simp [lit, List.isPrefixOf, adv]
            obtain ⟨p', g1, g2⟩ := ih ss acc' r f [' '] (',' :: p.prev) t (by simp)
              (fun x hx => hwf x (by simp at hx ⊢; right; exact hx)) hss hr' (Or.inr rfl)
              (by simp at hf ⊢; omega) ht
            refine ⟨p', ?_, g2⟩
            rw [htext]
            have hne : ∃ x xs, b ++ (c.text ++ (',' :: ' ' ::
                (joinText [',', ' '] ((c' :: cs').map Clause.text) ++ t))) = x :: xs := by
              rcases hb with rfl | rfl <;> rw [hk] <;> exact ⟨_, _, rfl⟩
            obtain ⟨x, xs, hx⟩ := hne
            rw [hx] at h1 ⊢
            simp only [readClauses, h1, hi, liftS, bind, Except.bind, hpw, hl]
            exact g1

theorem text_chars (c : Clause) (hc : c.Wf) : ∀ x, x ∈ c.text → isUpper x = false := by
  have h := fun x hx => showChar_not_upper x (show_chars c.version hc.1 x hx)
  intro x hx
  cases c <;> simp only [Clause.text, Clause.version, List.mem_cons, List.mem_append] at h hx
  all_goals
    first
    | (rcases hx with rfl | rfl | hx | rfl | rfl | hx <;> first | decide | exact h x hx | cases hx)
    | (rcases hx with rfl | rfl | hx <;> first | decide | exact h x hx)
    | (rcases hx with rfl | hx <;> first | decide | exact h x hx)

theorem joined_chars (cs : List Clause) (h : ∀ c, c ∈ cs → c.Wf) :
    ∀ x, x ∈ joinText [',', ' '] (cs.map Clause.text) → isUpper x = false := by
  induction cs with
  | nil => simp [joinText]
  | cons c cs ih =>
    intro x hx
    cases cs with
    | nil => simp [joinText] at hx; exact text_chars c (h c (by simp)) x hx
    | cons c' cs' =>
      have htext : joinText [',', ' '] ((c :: c' :: cs').map Clause.text) =
        c.text ++ (',' :: ' ' :: joinText [',', ' '] ((c' :: cs').map Clause.text)) := rfl
      rw [htext] at hx
      simp only [List.mem_append, List.mem_cons] at hx
      rcases hx with hx | rfl | rfl | hx
      · exact text_chars c (h c (by simp)) x hx
      · decide
      · decide
      · exact ih (fun y hy => h y (by simp at hy ⊢; right; exact hy)) x hx

theorem joined_length (cs : List Clause) : cs.length ≤ (joinText [',', ' '] (cs.map Clause.text)).length := by
  induction cs with
  | nil => simp
  | cons c cs ih =>
    obtain ⟨k, ks, hk, _⟩ := text_first c
    cases cs with
    | nil => simp [joinText, hk]
    | cons c' cs' =>
      have htext : joinText [',', ' '] ((c :: c' :: cs').map Clause.text) =
        c.text ++ (',' :: ' ' :: joinText [',', ' '] ((c' :: cs').map Clause.text)) := rfl
      rw [htext]
      simp at ih ⊢; omega

/-- `read_specifier` on the comma separated texts of well-formed clauses, followed by nothing or by a
semicolon, is the intersection of the specifiers of the clauses. -/
theorem readSpecifier_clauses (env : UrlEnv) (cs : List Clause) (ss : List VSpec) (r : VSpec) (b pv t : Text)
    (hb : b = [] ∨ b = [' '])
    (hne : cs ≠ []) (hwf : ∀ c, c ∈ cs → c.Wf) (hss : cs.map clauseSpec = ss.map .ok)
    (hr : interClauses .all ss = .ok r) (ht : t = [] ∨ ∃ u, t = ';' :: u) :
    ∃ p, readSpecifier env ⟨pv, b ++ (joinText [',', ' '] (cs.map Clause.text) ++ t)⟩ = .ok (r, p) ∧
      p.rest = t := by
  unfold readSpecifier
  obtain ⟨k, ks, hk, hk1, hk2⟩ : ∃ k ks, joinText [',', ' '] (cs.map Clause.text) = k :: ks ∧
      isSpace k = false ∧ k ≠ '(' := by
    cases cs with
    | nil => exact absurd rfl hne
    | cons c cs =>
      obtain ⟨k, ks, hk, h1, h2⟩ := text_first c
      cases cs with
      | nil => exact ⟨k, ks, by simp [joinText, hk], h1, h2⟩
      | cons c' cs' => exact ⟨k, _, by simp [joinText, hk]; rfl, h1, h2⟩
  have hlen := joined_length cs
  have hmain := readClauses_text env cs ss .all r
    ((joinText [',', ' '] (cs.map Clause.text) ++ t).length + 1)
    [] (b ++ pv) t hne hwf hss hr (Or.inl rfl) (by simp; omega) ht
  rw [hk] at hmain ⊢
  have hws : PS.ws ⟨pv, b ++ (k :: ks ++ t)⟩ = ⟨b ++ pv, k :: ks ++ t⟩ :=
    ws_blank b pv hb k (ks ++ t) hk1
  have hl : lit ['('] ⟨b ++ pv, k :: ks ++ t⟩ = Option.none := by
    simp [lit, List.isPrefixOf, Ne.symm hk2]
  simp only [hws, hl]
  exact hmain

/-- `parse_specifier` on the comma separated texts of well-formed clauses is the intersection of the
specifiers of the clauses. -/
theorem parseSpecifier_clauses (env : UrlEnv) (cs : List Clause) (ss : List VSpec) (r : VSpec)
    (hne : cs ≠ []) (hwf : ∀ c, c ∈ cs → c.Wf) (hss : cs.map clauseSpec = ss.map .ok)
    (hr : interClauses .all ss = .ok r) :
    parseSpecifier env (joinText [',', ' '] (cs.map Clause.text)) = .ok r := by
  unfold parseSpecifier
  rw [lower_id _ (joined_chars cs hwf)]
  obtain ⟨p, h, _⟩ := readSpecifier_clauses env cs ss r [] [] [] (Or.inl rfl) hne hwf hss hr (Or.inl rfl)
  simp only [List.nil_append, List.append_nil] at h
  simp [PS.ofText, h, Except.map]

end Pkm
