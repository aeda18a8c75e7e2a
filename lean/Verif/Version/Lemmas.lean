import Verif.Version.Model
/-
Order theory used for `_less`: a "stage" is a pair of an equivalence `e` and a strict order `l`
compatible with it; lexicographic composition of stages is a stage.
-/
set_option linter.unusedVariables false
namespace Pkm

theorem strLt_irrefl (s : Text) : strLt s s = false := by
  induction s with
  | nil => rfl
  | cons c cs ih => simp [strLt, ih]

theorem strLt_trans : ∀ a b c : Text, strLt a b = true → strLt b c = true → strLt a c = true
  | [], [], _, h, _ => by simp [strLt] at h
  | [], _ :: _, [], _, h => by simp [strLt] at h
  | [], _ :: _, _ :: _, _, _ => by simp [strLt]
  | _ :: _, [], _, h, _ => by simp [strLt] at h
  | _ :: _, _ :: _, [], _, h => by simp [strLt] at h
  | a :: as, b :: bs, c :: cs, h1, h2 => by
    simp only [strLt] at h1 h2 ⊢
    by_cases hab : a = b
    · subst hab
      by_cases hac : a = c
      · subst hac
        simp only [if_true] at *
        exact strLt_trans as bs cs h1 h2
      · simp [hac] at *; exact h2
    · by_cases hbc : b = c
      · subst hbc; simp [hab] at *; exact h1
      · simp only [hab, hbc, if_false, decide_eq_true_eq] at h1 h2
        have : a ≠ c := by intro h; subst h; omega
        simp only [this, if_false, decide_eq_true_eq]; omega

theorem char_toNat_inj {a b : Char} (h : a.toNat = b.toNat) : a = b := by
  apply Char.ext
  exact UInt32.toNat_inj.mp h

theorem strLt_total : ∀ a b : Text, a = b ∨ strLt a b = true ∨ strLt b a = true
  | [], [] => Or.inl rfl
  | [], _ :: _ => by simp [strLt]
  | _ :: _, [] => by simp [strLt]
  | a :: as, b :: bs => by
    by_cases hab : a = b
    · subst hab
      rcases strLt_total as bs with h | h | h
      · subst h; exact Or.inl rfl
      · right; left; simpa [strLt] using h
      · right; right; simpa [strLt] using h
    · have hn : a.toNat ≠ b.toNat := fun h => hab (char_toNat_inj h)
      have hba : ¬ b = a := fun h => hab h.symm
      right
      simp only [strLt, hab, hba, if_false, decide_eq_true_eq]
      omega

/-- A strict order `l` compatible with the equivalence `e`. -/
structure Stage {α : Type} (e l : α → α → Bool) : Prop where
  refl : ∀ a, e a a = true
  symm : ∀ a b, e a b = true → e b a = true
  trans : ∀ a b c, e a b = true → e b c = true → e a c = true
  ne : ∀ a b, l a b = true → e a b = false
  ltTrans : ∀ a b c, l a b = true → l b c = true → l a c = true
  congrL : ∀ a b c, e a b = true → l a c = l b c
  congrR : ∀ a b c, e a b = true → l c a = l c b

/-- Every pair is ordered. -/
def StageTotal {α : Type} (e l : α → α → Bool) : Prop :=
  ∀ a b, e a b = true ∨ l a b = true ∨ l b a = true

/-- Lexicographic composition. -/
def lexE {α : Type} (e1 e2 : α → α → Bool) (a b : α) : Bool := e1 a b && e2 a b
def lexL {α : Type} (e1 l1 l2 : α → α → Bool) (a b : α) : Bool :=
  if e1 a b then l2 a b else l1 a b

theorem Stage.irrefl {α} {e l : α → α → Bool} (s : Stage e l) (a : α) : l a a = false := by
  cases h : l a a with
  | false => rfl
  | true => have := s.ne a a h; rw [s.refl] at this; exact absurd this (by simp)

theorem Stage.asymm {α} {e l : α → α → Bool} (s : Stage e l) (a b : α)
    (h : l a b = true) : l b a = false := by
  cases h2 : l b a with
  | false => rfl
  | true => have := s.ltTrans a b a h h2; rw [s.irrefl] at this; exact absurd this (by simp)

theorem Stage.lex {α} {e1 l1 e2 l2 : α → α → Bool} (s1 : Stage e1 l1) (s2 : Stage e2 l2) :
    Stage (lexE e1 e2) (lexL e1 l1 l2) where
  refl a := by simp [lexE, s1.refl, s2.refl]
  symm a b h := by
    simp only [lexE, Bool.and_eq_true] at *
    exact ⟨s1.symm _ _ h.1, s2.symm _ _ h.2⟩
  trans a b c h h' := by
    simp only [lexE, Bool.and_eq_true] at *
    exact ⟨s1.trans _ _ _ h.1 h'.1, s2.trans _ _ _ h.2 h'.2⟩
  ne a b h := by
    simp only [lexE, lexL] at *
    cases he : e1 a b with
    | false => simp
    | true => rw [he] at h; simp at h; simp [s2.ne _ _ h]
  ltTrans a b c h h' := by
    simp only [lexL] at *
    cases he : e1 a b with
    | true =>
      rw [he] at h; simp only [if_true] at h
      cases he' : e1 b c with
      | true =>
        rw [he'] at h'; simp only [if_true] at h'
        rw [s1.trans _ _ _ he he']; simp only [if_true]
        exact s2.ltTrans _ _ _ h h'
      | false =>
        rw [he'] at h'; simp at h'
        have h3 : l1 a c = true := by rw [s1.congrL a b c he]; exact h'
        rw [s1.ne _ _ h3]; simpa using h3
    | false =>
      rw [he] at h; simp at h
      cases he' : e1 b c with
      | true =>
        have h3 : l1 a c = true := by rw [← s1.congrR b c a he']; exact h
        rw [s1.ne _ _ h3]; simpa using h3
      | false =>
        rw [he'] at h'; simp at h'
        have h3 := s1.ltTrans _ _ _ h h'
        rw [s1.ne _ _ h3]; simpa using h3
  congrL a b c h := by
    simp only [lexE, Bool.and_eq_true] at h
    have : e1 a c = e1 b c := by
      cases h1 : e1 b c with
      | true => exact s1.trans _ _ _ h.1 h1
      | false =>
        cases h2 : e1 a c with
        | false => rfl
        | true => rw [s1.trans _ _ _ (s1.symm _ _ h.1) h2] at h1; exact absurd h1 (by simp)
    simp only [lexL, this, s1.congrL a b c h.1, s2.congrL a b c h.2]
  congrR a b c h := by
    simp only [lexE, Bool.and_eq_true] at h
    have : e1 c a = e1 c b := by
      cases h1 : e1 c b with
      | true => exact s1.trans _ _ _ h1 (s1.symm _ _ h.1)
      | false =>
        cases h2 : e1 c a with
        | false => rfl
        | true => rw [s1.trans _ _ _ h2 h.1] at h1; exact absurd h1 (by simp)
    simp only [lexL, this, s1.congrR a b c h.1, s2.congrR a b c h.2]

theorem StageTotal.lex {α} {e1 l1 e2 l2 : α → α → Bool} (s1 : Stage e1 l1)
    (t1 : StageTotal e1 l1) (t2 : StageTotal e2 l2) :
    StageTotal (lexE e1 e2) (lexL e1 l1 l2) := by
  intro a b
  rcases t1 a b with h | h | h
  · rcases t2 a b with h' | h' | h'
    · left; simp [lexE, h, h']
    · right; left; simp [lexL, h, h']
    · right; right; simp [lexL, s1.symm _ _ h, h']
  · right; left; simp [lexL, s1.ne _ _ h, h]
  · right; right; simp [lexL, s1.ne _ _ h, h]

theorem Stage.pullback {α β} {e l : β → β → Bool} (s : Stage e l) (f : α → β) :
    Stage (fun a b => e (f a) (f b)) (fun a b => l (f a) (f b)) where
  refl a := s.refl _
  symm a b := s.symm _ _
  trans a b c := s.trans _ _ _
  ne a b := s.ne _ _
  ltTrans a b c := s.ltTrans _ _ _
  congrL a b c := s.congrL _ _ _
  congrR a b c := s.congrR _ _ _

/-- A finer equivalence may replace `e`. -/
theorem Stage.finer {α} {e l e' : α → α → Bool} (s : Stage e l)
    (r : ∀ a, e' a a = true) (sy : ∀ a b, e' a b = true → e' b a = true)
    (tr : ∀ a b c, e' a b = true → e' b c = true → e' a c = true)
    (imp : ∀ a b, e' a b = true → e a b = true) : Stage e' l where
  refl := r
  symm := sy
  trans := tr
  ne a b h := by
    cases h' : e' a b with
    | false => rfl
    | true => have := s.ne _ _ h; rw [imp _ _ h'] at this; exact absurd this (by simp)
  ltTrans := s.ltTrans
  congrL a b c h := s.congrL a b c (imp _ _ h)
  congrR a b c h := s.congrR a b c (imp _ _ h)

/-- Equality with a strict order. -/
theorem Stage.ofEq {α} [BEq α] [LawfulBEq α] {l : α → α → Bool}
    (irr : ∀ a, l a a = false) (tr : ∀ a b c, l a b = true → l b c = true → l a c = true) :
    Stage (fun a b => a == b) l where
  refl a := by simp
  symm a b h := by simp at *; exact h.symm
  trans a b c h h' := by simp at *; exact h.trans h'
  ne a b h := by
    simp; intro hab; subst hab; rw [irr] at h; exact absurd h (by simp)
  ltTrans := tr
  congrL a b c h := by simp at h; rw [h]
  congrR a b c h := by simp at h; rw [h]

namespace SV

/-! ### releases, with missing components read as zero -/

/-- Equality of releases up to trailing zeros. -/
def relEq : List Nat → List Nat → Bool
  | [], [] => true
  | [], b :: bs => b == 0 && relEq [] bs
  | a :: as, [] => a == 0 && relEq as []
  | a :: as, b :: bs => a == b && relEq as bs

/-- Order of releases with missing components read as zero. -/
def relLt : List Nat → List Nat → Bool
  | [], [] => false
  | [], b :: bs => if 0 = b then relLt [] bs else decide (0 < b)
  | a :: as, [] => if a = 0 then relLt as [] else decide (a < 0)
  | a :: as, b :: bs => if a = b then relLt as bs else decide (a < b)

/-- component `i` of a release, zero when missing. -/
def comp (r : List Nat) (i : Nat) : Nat := r.getD i 0

theorem relEq_iff (a b : List Nat) : relEq a b = true ↔ ∀ i, comp a i = comp b i := by
  induction a generalizing b with
  | nil =>
    induction b with
    | nil => simp [relEq]
    | cons b bs ih =>
      simp only [relEq, Bool.and_eq_true, beq_iff_eq, ih]
      constructor
      · rintro ⟨h0, h⟩ i
        cases i with
        | zero => simp [comp, h0]
        | succ i => simpa [comp] using h i
      · intro h
        refine ⟨by simpa [comp] using (h 0).symm, fun i => ?_⟩
        simpa [comp] using h (i + 1)
  | cons a as ih =>
    cases b with
    | nil =>
      simp only [relEq, Bool.and_eq_true, beq_iff_eq, ih]
      constructor
      · rintro ⟨h0, h⟩ i
        cases i with
        | zero => simp [comp, h0]
        | succ i => simpa [comp] using h i
      · intro h
        refine ⟨by simpa [comp] using (h 0), fun i => ?_⟩
        simpa [comp] using h (i + 1)
    | cons b bs =>
      simp only [relEq, Bool.and_eq_true, beq_iff_eq, ih]
      constructor
      · rintro ⟨h0, h⟩ i
        cases i with
        | zero => simp [comp, h0]
        | succ i => simpa [comp] using h i
      · intro h
        refine ⟨by simpa [comp] using (h 0), fun i => ?_⟩
        simpa [comp] using h (i + 1)

theorem relLt_iff (a b : List Nat) :
    relLt a b = true ↔ ∃ i, (∀ j, j < i → comp a j = comp b j) ∧ comp a i < comp b i := by
  have step : ∀ (x y : Nat) (as bs : List Nat) (r : Bool),
      (r = true ↔ ∃ i, (∀ j, j < i → comp as j = comp bs j) ∧ comp as i < comp bs i) →
      ((if x = y then r else decide (x < y)) = true ↔
        ∃ i, (∀ j, j < i → comp (x :: as) j = comp (y :: bs) j) ∧
          comp (x :: as) i < comp (y :: bs) i) := by
    intro x y as bs r ih
    by_cases hxy : x = y
    · subst hxy
      simp only [if_true, ih]
      constructor
      · rintro ⟨i, h1, h2⟩
        refine ⟨i + 1, ?_, by simpa [comp] using h2⟩
        intro j hj
        cases j with
        | zero => simp [comp]
        | succ j => simpa [comp] using h1 j (by omega)
      · rintro ⟨i, h1, h2⟩
        cases i with
        | zero => simp [comp] at h2
        | succ i =>
          refine ⟨i, fun j hj => ?_, by simpa [comp] using h2⟩
          simpa [comp] using h1 (j + 1) (by omega)
    · simp only [hxy, if_false, decide_eq_true_eq]
      constructor
      · intro h; exact ⟨0, by simp, by simpa [comp] using h⟩
      · rintro ⟨i, h1, h2⟩
        cases i with
        | zero => simpa [comp] using h2
        | succ i => exact absurd (by simpa [comp] using h1 0 (by omega)) hxy
  have nilcons : ∀ i, comp [] i = comp [0] i := by
    intro i; cases i <;> simp [comp]
  have comp_nil : ∀ (i : Nat), comp ([] : List Nat) i = comp (0 :: []) i := nilcons
  induction a generalizing b with
  | nil =>
    induction b with
    | nil => simp [relLt]
    | cons b bs ih =>
      have := step 0 b [] bs (relLt [] bs) ih
      simp only [relLt, this]
      simp only [← comp_nil]
  | cons a as ih =>
    cases b with
    | nil =>
      have := step a 0 as [] (relLt as []) (ih [])
      simp only [relLt, this]
      simp only [← comp_nil]
    | cons b bs => simpa only [relLt] using step a b as bs (relLt as bs) (ih bs)

theorem relStage : Stage relEq relLt where
  refl a := by rw [relEq_iff]; simp
  symm a b h := by rw [relEq_iff] at *; exact fun i => (h i).symm
  trans a b c h h' := by rw [relEq_iff] at *; exact fun i => (h i).trans (h' i)
  ne a b h := by
    rw [relLt_iff] at h
    obtain ⟨i, _, h2⟩ := h
    cases he : relEq a b with
    | false => rfl
    | true => rw [relEq_iff] at he; have := he i; omega
  ltTrans a b c h h' := by
    rw [relLt_iff] at *
    obtain ⟨i, h1, h2⟩ := h
    obtain ⟨k, h3, h4⟩ := h'
    rcases Nat.lt_trichotomy i k with hik | hik | hik
    · exact ⟨i, fun j hj => (h1 j hj).trans (h3 j (by omega)), by rw [← h3 i hik]; exact h2⟩
    · subst hik; exact ⟨i, fun j hj => (h1 j hj).trans (h3 j hj), by omega⟩
    · exact ⟨k, fun j hj => (h1 j (by omega)).trans (h3 j hj), by rw [h1 k hik]; exact h4⟩
  congrL a b c h := by
    rw [relEq_iff] at h
    rw [Bool.eq_iff_iff, relLt_iff, relLt_iff]
    simp only [h]
  congrR a b c h := by
    rw [relEq_iff] at h
    rw [Bool.eq_iff_iff, relLt_iff, relLt_iff]
    simp only [h]

theorem relTotal : StageTotal relEq relLt := by
  intro a b
  induction a generalizing b with
  | nil =>
    induction b with
    | nil => simp [relEq]
    | cons b bs ih =>
      by_cases hb : b = 0
      · subst hb; simpa [relEq, relLt] using ih
      · right; left
        have : ¬ 0 = b := fun h => hb h.symm
        simp only [relLt, this, if_false, decide_eq_true_eq]; omega
  | cons a as ih =>
    cases b with
    | nil =>
      by_cases ha : a = 0
      · subst ha; simpa [relEq, relLt] using ih []
      · right; right
        have : ¬ 0 = a := fun h => ha h.symm
        simp only [relLt, this, if_false, decide_eq_true_eq]; omega
    | cons b bs =>
      by_cases hab : a = b
      · subst hab; simpa [relEq, relLt] using ih bs
      · right
        have : ¬ b = a := fun h => hab h.symm
        simp only [relLt, hab, this, if_false, decide_eq_true_eq]; omega

theorem comp_padTo (n : Nat) (r : List Nat) (i : Nat) : comp (padTo n r) i = comp r i := by
  unfold comp padTo
  simp only [List.getD_eq_getElem?_getD, List.getElem?_append, List.getElem?_replicate]
  by_cases h : i < r.length
  · simp [h]
  · simp only [h, if_false]
    rw [List.getElem?_eq_none (by omega)]
    split <;> simp

theorem padTo_length (n : Nat) (r : List Nat) (h : r.length ≤ n) : (padTo n r).length = n := by
  simp [padTo]; omega

/-- Padded releases are equal iff they agree component-wise. -/
theorem padded_eq (a b : List Nat) :
    (padTo (max a.length b.length) a == padTo (max a.length b.length) b) = relEq a b := by
  rw [Bool.eq_iff_iff, relEq_iff, beq_iff_eq]
  constructor
  · intro h i
    rw [← comp_padTo (max a.length b.length) a, h, comp_padTo]
  · intro h
    apply List.ext_getElem
    · rw [padTo_length _ _ (by omega), padTo_length _ _ (by omega)]
    · intro i h1 h2
      have := h i
      rw [← comp_padTo (max a.length b.length) a, ← comp_padTo (max a.length b.length) b] at this
      simpa [comp, h1, h2] using this

/-- The release loop on lists of equal length. -/
theorem releaseLoop_eq (a b : List Nat) (h : a.length = b.length) :
    releaseLoop a b = if relEq a b then none else some (relLt a b) := by
  induction a generalizing b with
  | nil =>
    cases b with
    | nil => simp [releaseLoop, relEq]
    | cons b bs => simp at h
  | cons a as ih =>
    cases b with
    | nil => simp at h
    | cons b bs =>
      simp at h
      by_cases hab : a = b
      · subst hab; simp [releaseLoop, relEq, relLt, ih bs h]
      · simp [releaseLoop, relEq, relLt, hab]

theorem relEq_pad (a b : List Nat) (n m : Nat) : relEq (padTo n a) (padTo m b) = relEq a b := by
  rw [Bool.eq_iff_iff, relEq_iff, relEq_iff]; simp only [comp_padTo]

theorem relLt_pad (a b : List Nat) (n m : Nat) : relLt (padTo n a) (padTo m b) = relLt a b := by
  rw [Bool.eq_iff_iff, relLt_iff, relLt_iff]; simp only [comp_padTo]

theorem releaseLoop_normalized (a b : SV) :
    releaseLoop (normalized a b).1.release (normalized a b).2.release
      = if relEq a.release b.release then none else some (relLt a.release b.release) := by
  simp only [normalized]
  rw [releaseLoop_eq _ _ (by rw [padTo_length _ _ (by omega), padTo_length _ _ (by omega)]),
    relEq_pad, relLt_pad]

theorem equalsTo_eq (a b : SV) (c : Bool) :
    equalsTo a b c = ((a.epoch0 == b.epoch0) && relEq a.release b.release && (a.pre == b.pre)
      && (a.post == b.post) && (a.dev == b.dev) && (!c || a.loc == b.loc)) := by
  simp only [equalsTo, normalized, padded_eq, epoch0]

/-! ### the optional numeric stages -/

def natLt (a b : Nat) : Bool := decide (a < b)

theorem natStage : Stage (fun a b : Nat => a == b) natLt :=
  Stage.ofEq (by simp [natLt]) (by simp [natLt]; omega)

theorem natTotal : StageTotal (fun a b : Nat => a == b) natLt := by
  intro a b; simp [natLt]; omega

/-- None is the greatest. -/
def devLt (a b : Option Nat) : Bool :=
  match a, b with
  | some x, some y => decide (x < y)
  | some _, none => true
  | none, _ => false

theorem devStage' : Stage (fun a b : Option Nat => a == b) devLt := by
  apply Stage.ofEq
  · intro a; cases a <;> simp [devLt]
  · intro a b c; cases a <;> cases b <;> cases c <;> simp [devLt]; omega

theorem devTotal : StageTotal (fun a b : Option Nat => a == b) devLt := by
  intro a b; cases a <;> cases b <;> simp [devLt]; omega

theorem devStage_eq (a b : Option Nat) :
    devStage a b = if a == b then none else some (devLt a b) := by
  unfold devStage
  by_cases h : a = b
  · simp [h]
  · cases a <;> cases b <;> simp_all [devLt]

/-- None is the smallest. -/
def postLt (a b : Option Nat) : Bool :=
  match a, b with
  | some x, some y => decide (x < y)
  | none, some _ => true
  | _, none => false

theorem postStage' : Stage (fun a b : Option Nat => a == b) postLt := by
  apply Stage.ofEq
  · intro a; cases a <;> simp [postLt]
  · intro a b c; cases a <;> cases b <;> cases c <;> simp [postLt]; omega

theorem postTotal : StageTotal (fun a b : Option Nat => a == b) postLt := by
  intro a b; cases a <;> cases b <;> simp [postLt]; omega

theorem postStage_eq (a b : Option Nat) :
    postStage a b = if a == b then none else some (postLt a b) := by
  unfold postStage
  by_cases h : a = b
  · simp [h]
  · cases a <;> cases b <;> simp_all [postLt]

def prePairLt (p q : Text × Nat) : Bool :=
  if p.1 == q.1 then decide (p.2 < q.2) else strLt p.1 q.1

/-- None is the greatest; tags before numbers. -/
def preLt (a b : Option (Text × Nat)) : Bool :=
  match a, b with
  | some p, some q => prePairLt p q
  | some _, none => true
  | none, _ => false

theorem strStage : Stage (fun a b : Text => a == b) strLt :=
  Stage.ofEq strLt_irrefl strLt_trans

theorem strTotal : StageTotal (fun a b : Text => a == b) strLt := by
  intro a b
  rcases strLt_total a b with h | h | h
  · left; simp [h]
  · right; left; exact h
  · right; right; exact h

theorem prePairStage : Stage (fun a b : Text × Nat => a == b) prePairLt := by
  have := Stage.lex (strStage.pullback (fun p : Text × Nat => p.1))
    (natStage.pullback (fun p : Text × Nat => p.2))
  apply Stage.ofEq
  · intro a; exact this.irrefl a
  · intro a b c; exact this.ltTrans a b c

theorem preStage' : Stage (fun a b : Option (Text × Nat) => a == b) preLt := by
  apply Stage.ofEq
  · intro a; cases a <;> simp [preLt]; exact prePairStage.irrefl _
  · intro a b c; cases a <;> cases b <;> cases c <;> simp [preLt]; exact prePairStage.ltTrans _ _ _

theorem preTotal : StageTotal (fun a b : Option (Text × Nat) => a == b) preLt := by
  intro a b
  cases a with
  | none => cases b <;> simp [preLt]
  | some p =>
    cases b with
    | none => simp [preLt]
    | some q =>
      obtain ⟨t, n⟩ := p
      obtain ⟨u, m⟩ := q
      simp only [preLt, prePairLt]
      by_cases htu : t = u
      · subst htu; simp; omega
      · have hut : ¬ u = t := fun h => htu h.symm
        rcases strLt_total t u with h | h | h
        · exact absurd h htu
        · right; left; simp [htu, h]
        · right; right; simp [hut, h]

theorem preStage_eq (a b : Option (Text × Nat)) :
    preStage a b = if a == b then none else some (preLt a b) := by
  unfold preStage
  by_cases h : a = b
  · simp [h]
  · cases a with
    | none => cases b <;> simp_all [preLt]
    | some p =>
      cases b with
      | none => simp_all [preLt]
      | some q =>
        obtain ⟨t, n⟩ := p
        obtain ⟨u, m⟩ := q
        by_cases htu : t = u
        · subst htu
          have : n ≠ m := by intro hh; subst hh; exact h rfl
          simp [preLt, prePairLt, this]
        · simp [preLt, prePairLt, htu]

/-! ### local labels -/

def segLt (m o : Text) : Bool :=
  if isNumeric m && isNumeric o then false
  else if isNumeric m || isNumeric o then isNumeric o
  else strLt m o

theorem segLt_irrefl (m : Text) : segLt m m = false := by
  unfold segLt; cases isNumeric m <;> simp [strLt_irrefl]

theorem segLt_trans (a b c : Text) (h : segLt a b = true) (h' : segLt b c = true) :
    segLt a c = true := by
  unfold segLt at *
  cases ha : isNumeric a <;> cases hb : isNumeric b <;> cases hc : isNumeric c <;>
    simp_all
  exact strLt_trans _ _ _ h h'

theorem localLoop_cons (m o : Text) (ms os : List Text) :
    localLoop (m :: ms) (o :: os) = if m = o then localLoop ms os else segLt m o := rfl

theorem localLoop_irrefl (a : List Text) : localLoop a a = false := by
  induction a with
  | nil => rfl
  | cons m ms ih => simp [localLoop_cons, ih]

theorem localLoop_trans : ∀ a b c : List Text,
    localLoop a b = true → localLoop b c = true → localLoop a c = true
  | [], [], _, h, _ => by simp [localLoop] at h
  | [], _ :: _, [], _, h => by simp [localLoop] at h
  | [], _ :: _, _ :: _, _, _ => by simp [localLoop]
  | _ :: _, [], _, h, _ => by simp [localLoop] at h
  | _ :: _, _ :: _, [], _, h => by simp [localLoop] at h
  | a :: as, b :: bs, c :: cs, h1, h2 => by
    rw [localLoop_cons] at *
    by_cases hab : a = b
    · subst hab
      by_cases hac : a = c
      · subst hac
        simp only [if_true] at *
        exact localLoop_trans as bs cs h1 h2
      · simp [hac] at *; exact h2
    · by_cases hbc : b = c
      · subst hbc; simp [hab] at *; exact h1
      · simp only [hab, hbc, if_false] at h1 h2
        have h3 := segLt_trans _ _ _ h1 h2
        have : a ≠ c := by
          intro h; subst h; rw [segLt_irrefl] at h3; exact absurd h3 (by simp)
        simp only [this, if_false]; exact h3

theorem localStage : Stage (fun a b : List Text => a == b) localLoop :=
  Stage.ofEq localLoop_irrefl localLoop_trans

/-! ### the whole cascade -/

/-- The six stages of `_less` as one lexicographic composition. -/
def cascE : SV → SV → Bool :=
  lexE (fun a b => a.epoch0 == b.epoch0)
    (lexE (fun a b => relEq a.release b.release)
      (lexE (fun a b => a.dev == b.dev)
        (lexE (fun a b => a.pre == b.pre)
          (lexE (fun a b => a.post == b.post)
            (fun a b => localSegments a.loc == localSegments b.loc)))))

def cascL : SV → SV → Bool :=
  lexL (fun a b => a.epoch0 == b.epoch0) (fun a b => natLt a.epoch0 b.epoch0)
    (lexL (fun a b => relEq a.release b.release) (fun a b => relLt a.release b.release)
      (lexL (fun a b => a.dev == b.dev) (fun a b => devLt a.dev b.dev)
        (lexL (fun a b => a.pre == b.pre) (fun a b => preLt a.pre b.pre)
          (lexL (fun a b => a.post == b.post) (fun a b => postLt a.post b.post)
            (fun a b => localLoop (localSegments a.loc) (localSegments b.loc))))))

theorem cascStage : Stage cascE cascL :=
  (natStage.pullback SV.epoch0).lex <| (relStage.pullback SV.release).lex <|
    (devStage'.pullback SV.dev).lex <| (preStage'.pullback SV.pre).lex <|
      (postStage'.pullback SV.post).lex (localStage.pullback (fun v : SV => localSegments v.loc))

theorem lt_eq_casc (a b : SV) : lt a b = cascL a b := by
  simp only [lt, cascL, lexL, releaseLoop_normalized, devStage_eq, preStage_eq, postStage_eq,
    natLt]
  by_cases h1 : a.epoch0 = b.epoch0
  · by_cases h2 : relEq a.release b.release = true <;> simp [h1, h2]
    by_cases h3 : a.dev = b.dev <;> simp [h3]
    by_cases h4 : a.pre = b.pre <;> simp [h4]
    by_cases h5 : a.post = b.post <;> simp [h5]
  · simp [h1]

/-- Equality of everything but the local label. -/
def eqNoLoc (a b : SV) : Bool := equalsTo a b false

theorem eqv_stage : Stage eqv lt := by
  have hl : (lt : SV → SV → Bool) = cascL := by
    funext a b; exact lt_eq_casc a b
  rw [hl]
  apply cascStage.finer
  · intro a; simp [eqv, equalsTo_eq, relStage.refl]
  · intro a b h
    simp only [eqv, equalsTo_eq, Bool.and_eq_true, beq_iff_eq, Bool.or_eq_true, Bool.not_true,
      Bool.false_eq_true, false_or] at *
    obtain ⟨⟨⟨⟨⟨h1, h2⟩, h3⟩, h4⟩, h5⟩, h6⟩ := h
    exact ⟨⟨⟨⟨⟨h1.symm, relStage.symm _ _ h2⟩, h3.symm⟩, h4.symm⟩, h5.symm⟩, h6.symm⟩
  · intro a b c h h'
    simp only [eqv, equalsTo_eq, Bool.and_eq_true, beq_iff_eq, Bool.or_eq_true, Bool.not_true,
      Bool.false_eq_true, false_or] at *
    obtain ⟨⟨⟨⟨⟨h1, h2⟩, h3⟩, h4⟩, h5⟩, h6⟩ := h
    obtain ⟨⟨⟨⟨⟨k1, k2⟩, k3⟩, k4⟩, k5⟩, k6⟩ := h'
    exact ⟨⟨⟨⟨⟨h1.trans k1, relStage.trans _ _ _ h2 k2⟩, h3.trans k3⟩, h4.trans k4⟩,
      h5.trans k5⟩, h6.trans k6⟩
  · intro a b h
    simp only [eqv, equalsTo_eq, Bool.and_eq_true, beq_iff_eq, Bool.or_eq_true, Bool.not_true,
      Bool.false_eq_true, false_or] at h
    obtain ⟨⟨⟨⟨⟨h1, h2⟩, h3⟩, h4⟩, h5⟩, h6⟩ := h
    simp [cascE, lexE, h1, h2, h3, h4, h5, h6]

end SV

end Pkm
