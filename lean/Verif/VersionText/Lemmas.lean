import Verif.VersionText.Model
import Verif.ParserLemmas
set_option linter.unusedVariables false
set_option linter.unusedSimpArgs false
/-
The version parser run on printed versions.
-/
namespace Pkm
open PS

namespace Spec

/-- Versions written in normal form: a non-empty release, a pre-release tag `a`, `b` or `rc`, a local
label of lower-case letters, digits and dots. -/
structure Printable (v : SV) : Prop where
  release : v.release ≠ []
  tag : ∀ t n, v.pre = some (t, n) → t = ['a'] ∨ t = ['b'] ∨ t = ['r', 'c']
  label : ∀ l, v.loc = some l → ∀ c, c ∈ l → isLower c = true ∨ isDigit c = true ∨ c = '.'

/-- The local label, if any, does not end with a dot. -/
def NoTrailingDot (v : SV) : Prop := ∀ l, v.loc = some l → l.getLast? ≠ some '.'

end Spec
open Spec

/-- The characters that end a version or a clause. -/
inductive Sep : Char → Prop
  | comma : Sep ','
  | semi : Sep ';'

/-- What may follow a printed version: nothing, a comma or semicolon, or `.*` or
the start of `.tar.gz`. -/
def Tail (loc : Option Text) (t : Text) : Prop :=
  t = [] ∨ (∃ c u, t = c :: u ∧ Sep c) ∨
    (loc = none ∧ ∃ c u, t = '.' :: c :: u ∧ (c = '*' ∨ c = 't'))

theorem showNat_lit_none (c : Char) (s pv r : Text) (n : Nat) (hc : isDigit c = false) :
    lit (c :: s) ⟨pv, showNat n ++ r⟩ = none := by
  apply lit_none_head
  intro d ds h
  obtain ⟨e, es, he, hd⟩ := showNat_cons n
  rw [he] at h; simp at h
  intro hx; rw [← hx, ← h.1, hd] at hc; simp at hc

theorem showNat_peek (f : Char → Bool) (n : Nat) (pv r : Text) (hf : ∀ c, isDigit c = true → f c = true) :
    peekIs f ⟨pv, showNat n ++ r⟩ = true := by
  obtain ⟨e, es, he, hd⟩ := showNat_cons n
  simp [he, peekIs, hf e hd]

theorem showNat_prev (f : Char → Bool) (n : Nat) (pv r : Text) (hf : ∀ c, isDigit c = true → f c = true) :
    prevIs f ⟨(showNat n).reverse ++ pv, r⟩ = true := by
  obtain ⟨e, es, he, hd⟩ := showNat_reverse_cons n
  simp [he, prevIs, hf e hd]

theorem prev_digit (f : Char → Bool) (pv r : Text) (b : Bool) (h : ∃ c cs, pv = c :: cs ∧ isDigit c = true)
    (hf : ∀ c, isDigit c = true → f c = b) : prevIs f ⟨pv, r⟩ = b := by
  obtain ⟨c, cs, rfl, hc⟩ := h
  simp [prevIs, hf c hc]

/-! ### release -/

/-- Step over a dot. -/
def dotted (p : PS) : PS := p.skipAny [['.']]

/-- What follows the release components does not look like another component. -/
def AfterRelease (R : Text) : Prop :=
  StartsNot isDigit R ∧ ∀ u, R = '.' :: u → StartsNot isDigit u

theorem readComponents_stop (f : Nat) (acc : List Nat) (pv R : Text) (h : AfterRelease R) :
    readComponents (f + 1) acc ⟨pv, R⟩ = (acc, dotted ⟨pv, R⟩) := by
  cases R with
  | nil => simp [readComponents, lit, dotted, skipAny, litAny]
  | cons c cs =>
    by_cases hc : c = '.'
    · subst hc
      have h2 := h.2 cs rfl
      simp [readComponents, lit, List.isPrefixOf, adv, dotted, skipAny, litAny,
        readNat_none ('.' :: pv) cs h2]
    · simp [readComponents, lit, List.isPrefixOf, Ne.symm hc, dotted, skipAny, litAny]

theorem readComponents_stop0 (acc : List Nat) (pv : Text) :
    readComponents 0 acc ⟨pv, []⟩ = (acc, dotted ⟨pv, []⟩) := by
  simp [readComponents, dotted, skipAny, litAny, lit]

/-- The text of further components. -/
def moreComponents : List Nat → Text
  | [] => []
  | n :: ns => '.' :: (showNat n ++ moreComponents ns)

theorem showRelease_cons (n : Nat) (ns : List Nat) :
    showRelease (n :: ns) = showNat n ++ moreComponents ns := by
  induction ns generalizing n with
  | nil => simp [showRelease, moreComponents]
  | cons m ms ih => simp [showRelease, moreComponents, ih]

theorem moreComponents_start (ns : List Nat) (R : Text) (h : StartsNot isDigit R) :
    StartsNot isDigit (moreComponents ns ++ R) := by
  cases ns with
  | nil => simpa [moreComponents] using h
  | cons n ns => simp [moreComponents]; decide

theorem readComponents_show (ns : List Nat) (f : Nat) (acc : List Nat) (pv R : Text)
    (hf : (moreComponents ns ++ R).length ≤ f) (h : AfterRelease R)
    (hpv : ∃ c cs, pv = c :: cs ∧ isDigit c = true) :
    ∃ pv', (∃ c cs, pv' = c :: cs ∧ isDigit c = true) ∧
      readComponents f acc ⟨pv, moreComponents ns ++ R⟩ = (acc ++ ns, dotted ⟨pv', R⟩) := by
  induction ns generalizing f acc pv with
  | nil =>
    refine ⟨pv, hpv, ?_⟩
    cases f with
    | zero =>
      simp [moreComponents] at hf; subst hf
      simp [moreComponents, readComponents_stop0]
    | succ f => simp [moreComponents, readComponents_stop f acc pv R h]
  | cons n ns ih =>
    cases f with
    | zero => simp [moreComponents] at hf
    | succ f =>
      have hs : StartsNot isDigit (moreComponents ns ++ R) := moreComponents_start ns R h.1
      obtain ⟨c, cs, he, hd⟩ := showNat_reverse_cons n
      obtain ⟨pv', hpv', hr⟩ := ih f (acc ++ [n]) ((showNat n).reverse ++ '.' :: pv)
        (by simp [moreComponents] at hf ⊢; omega) ⟨c, cs ++ '.' :: pv, by simp [he], hd⟩
      refine ⟨pv', hpv', ?_⟩
      simp only [moreComponents, List.cons_append, List.append_assoc, readComponents]
      have : lit ['.'] ⟨pv, '.' :: (showNat n ++ (moreComponents ns ++ R))⟩ =
          some ⟨'.' :: pv, showNat n ++ (moreComponents ns ++ R)⟩ := by
        simp [lit, List.isPrefixOf, adv]
      simp only [this, readNat_showNat n _ _ hs, hr]
      simp

theorem readRelease_show (e : Option Nat) (r : List Nat) (pv R : Text) (hr : r ≠ [])
    (h : AfterRelease R) (hx : ∀ u, R ≠ '!' :: u) :
    ∃ pv', (∃ c cs, pv' = c :: cs ∧ isDigit c = true) ∧
      readRelease ⟨pv, showEpoch e ++ (showRelease r ++ R)⟩ = some (e, r, dotted ⟨pv', R⟩) := by
  cases r with
  | nil => exact absurd rfl hr
  | cons n ns =>
    have hs : StartsNot isDigit (moreComponents ns ++ R) := moreComponents_start ns R h.1
    cases e with
    | none =>
      have hb : ∀ pv, lit ['!'] ⟨pv, moreComponents ns ++ R⟩ = none := by
        intro pv
        apply lit_none_head
        intro d ds hd
        cases ns with
        | nil => simp [moreComponents] at hd; intro hh; subst hh; exact hx ds hd
        | cons m ms => simp [moreComponents] at hd; rw [← hd.1]; decide
      obtain ⟨c, cs, he, hd⟩ := showNat_reverse_cons n
      obtain ⟨pv', hpv', hc⟩ := readComponents_show ns _ [n] ((showNat n).reverse ++ pv) R
        (Nat.le_refl _) h ⟨c, cs ++ pv, by simp [he], hd⟩
      refine ⟨pv', hpv', ?_⟩
      simp only [showEpoch, List.nil_append, showRelease_cons, List.append_assoc, readRelease,
        readNat_showNat n _ _ hs, hb, hc]
      rfl
    | some e =>
      have hb : ∀ pv, lit ['!'] ⟨pv, '!' :: (showNat n ++ (moreComponents ns ++ R))⟩ =
          some ⟨'!' :: pv, showNat n ++ (moreComponents ns ++ R)⟩ := by
        intro pv; simp [lit, List.isPrefixOf, adv]
      obtain ⟨c, cs, he, hd⟩ := showNat_reverse_cons n
      obtain ⟨pv', hpv', hc⟩ := readComponents_show ns _ [n]
        ((showNat n).reverse ++ '!' :: ((showNat e).reverse ++ pv)) R
        (Nat.le_refl _) h ⟨c, cs ++ '!' :: ((showNat e).reverse ++ pv), by simp [he], hd⟩
      refine ⟨pv', hpv', ?_⟩
      have h1 := readNat_showNat e pv ('!' :: (showNat n ++ (moreComponents ns ++ R))) (by simp; decide)
      simp only [showEpoch, List.append_assoc, List.singleton_append, showRelease_cons, readRelease,
        h1, hb, readNat_showNat n _ _ hs, hc]

/-! ### suffixes -/

/-- How the text after the pre-release part can start. -/
def SufHead (X : Text) : Prop :=
  X = [] ∨ (∃ u, X = '+' :: u) ∨ (∃ c u, X = c :: u ∧ Sep c) ∨
    (∃ c u, X = '.' :: c :: u ∧ ((c = 'p' ∧ ∃ w, u = 'o' :: w) ∨ c = 'd' ∨ c = '*' ∨ c = 't'))

def PrevDigit (pv : Text) : Prop := ∃ c cs, pv = c :: cs ∧ isDigit c = true

theorem sufHead_tail (l : Option Text) (t : Text) (h : Tail l t) : SufHead t := by
  rcases h with h | ⟨c, u, h⟩ | ⟨_, c, u, h, hc⟩
  · exact Or.inl h
  · exact Or.inr (Or.inr (Or.inl ⟨c, u, h⟩))
  · exact Or.inr (Or.inr (Or.inr ⟨_, u, h, Or.inr (Or.inr hc)⟩))

theorem sufHead_loc (l : Option Text) (t : Text) (h : Tail l t) : SufHead (showLoc l ++ t) := by
  cases l with
  | none => exact sufHead_tail _ t h
  | some l => exact Or.inr (Or.inl ⟨l ++ t, rfl⟩)

theorem sufHead_dev (d : Option Nat) (Z : Text) (h : SufHead Z) : SufHead (showDev d ++ Z) := by
  cases d with
  | none => exact h
  | some n => exact Or.inr (Or.inr (Or.inr ⟨'d', _, rfl, by simp⟩))

theorem sufHead_post (d : Option Nat) (Z : Text) (h : SufHead Z) : SufHead (showPost d ++ Z) := by
  cases d with
  | none => exact h
  | some n => exact Or.inr (Or.inr (Or.inr ⟨'p', _, rfl, Or.inl ⟨rfl, _, rfl⟩⟩))

theorem SufHead.noDigit {X : Text} (h : SufHead X) : StartsNot isDigit X := by
  rcases h with rfl | ⟨u, rfl⟩ | ⟨_, u, rfl, _ | _⟩ | ⟨c, u, rfl, _⟩ <;> simp <;> decide

theorem SufHead.after {X : Text} (h : SufHead X) : AfterRelease X := by
  refine ⟨h.noDigit, fun u hu => ?_⟩
  rcases h with rfl | ⟨v, rfl⟩ | ⟨_, v, rfl, _ | _⟩ | ⟨c, v, rfl, hc⟩
  · simp at hu
  · simp at hu
  · simp at hu
  · simp at hu
  · simp at hu; subst hu
    rcases hc with ⟨rfl, _⟩ | rfl | rfl | rfl <;> simp <;> decide

/-- The state before or after stepping over a dot. -/
def NearDot (Q : PS) (pv X : Text) : Prop := Q = ⟨pv, X⟩ ∨ Q = dotted ⟨pv, X⟩

theorem dotted_dot (pv u : Text) : dotted ⟨pv, '.' :: u⟩ = ⟨'.' :: pv, u⟩ := by
  simp [dotted, skipAny, litAny, lit, List.isPrefixOf, adv]

theorem dotted_other (pv X : Text) (h : ∀ u, X ≠ '.' :: u) : dotted ⟨pv, X⟩ = ⟨pv, X⟩ := by
  cases X with
  | nil => simp [dotted, skipAny, litAny, lit]
  | cons c cs =>
    have : c ≠ '.' := fun e => h cs (by rw [e])
    simp [dotted, skipAny, litAny, lit, List.isPrefixOf, Ne.symm this]

theorem prevDigit_prev (f : Char → Bool) (b : Bool) (pv r : Text) (h : PrevDigit pv)
    (hf : ∀ c, isDigit c = true → f c = b) : prevIs f ⟨pv, r⟩ = b := prev_digit f pv r b h hf

/-- Skipping a separator (vp 61-62, 68-69) amounts to stepping over the dot. -/
theorem skip_near (f : Char → Bool) (hf : ∀ c, isDigit c = true → f c = true) (hf' : f '.' = false)
    (Q : PS) (pv X : Text) (hQ : NearDot Q pv X) (hpv : PrevDigit pv) (hX : SufHead X) :
    (if Q.prevIs f then Q.skipAny seps else Q) = dotted ⟨pv, X⟩ := by
  rcases hX with rfl | ⟨v, rfl⟩ | ⟨_, v, rfl, _ | _⟩ | ⟨c, v, rfl, hc⟩
  · have e := dotted_other pv [] (by simp)
    have : Q = ⟨pv, []⟩ := by rcases hQ with h | h <;> simp [h, e]
    subst this
    rw [prevDigit_prev f true pv _ hpv hf, e]
    simp [skipAny, litAny, lit, seps]
  · have e := dotted_other pv ('+' :: v) (by simp)
    have : Q = ⟨pv, '+' :: v⟩ := by rcases hQ with h | h <;> simp [h, e]
    subst this
    rw [prevDigit_prev f true pv _ hpv hf, e]
    simp [skipAny, litAny, lit, seps, List.isPrefixOf]
  · have e := dotted_other pv (',' :: v) (by simp)
    have : Q = ⟨pv, ',' :: v⟩ := by rcases hQ with h | h <;> simp [h, e]
    subst this
    rw [prevDigit_prev f true pv _ hpv hf, e]
    simp [skipAny, litAny, lit, seps, List.isPrefixOf]
  · have e := dotted_other pv (';' :: v) (by simp)
    have : Q = ⟨pv, ';' :: v⟩ := by rcases hQ with h | h <;> simp [h, e]
    subst this
    rw [prevDigit_prev f true pv _ hpv hf, e]
    simp [skipAny, litAny, lit, seps, List.isPrefixOf]
  · have e := dotted_dot pv (c :: v)
    rcases hQ with rfl | rfl
    · rw [prevDigit_prev f true pv _ hpv hf, e]
      simp [skipAny, litAny, lit, seps, List.isPrefixOf, adv]
    · rw [e]
      simp [prevIs, hf']

theorem PrevDigit_showNat (n : Nat) (pv : Text) : PrevDigit ((showNat n).reverse ++ pv) := by
  obtain ⟨c, cs, he, hd⟩ := showNat_reverse_cons n
  exact ⟨c, cs ++ pv, by simp [he], hd⟩

theorem readPre_none (pv X : Text) (hX : SufHead X) :
    readPre (dotted ⟨pv, X⟩) = (none, dotted ⟨pv, X⟩) := by
  rcases hX with rfl | ⟨v, rfl⟩ | ⟨_, v, rfl, _ | _⟩ | ⟨c, v, rfl, hc⟩
  · rw [dotted_other pv _ (by simp)]
    simp [readPre, litAny, lit, preKeys]
  · rw [dotted_other pv _ (by simp)]
    simp [readPre, litAny, lit, preKeys, List.isPrefixOf]
  · rw [dotted_other pv _ (by simp)]
    simp [readPre, litAny, lit, preKeys, List.isPrefixOf]
  · rw [dotted_other pv _ (by simp)]
    simp [readPre, litAny, lit, preKeys, List.isPrefixOf]
  · rw [dotted_dot]
    rcases hc with ⟨rfl, w, rfl⟩ | rfl | rfl | rfl
    · simp [readPre, litAny, lit, preKeys, List.isPrefixOf]
    · simp [readPre, litAny, lit, preKeys, List.isPrefixOf]
    · simp [readPre, litAny, lit, preKeys, List.isPrefixOf]
    · simp [readPre, litAny, lit, preKeys, List.isPrefixOf]

theorem readPre_some (t : Text) (n : Nat) (pv X : Text) (hX : StartsNot isDigit X)
    (ht : t = ['a'] ∨ t = ['b'] ∨ t = ['r', 'c']) :
    ∃ pv', PrevDigit pv' ∧ readPre (dotted ⟨pv, t ++ (showNat n ++ X)⟩) =
      (some (t, n), ⟨pv', X⟩) := by
  have key : ∀ pv, (PS.skipAny seps ⟨pv, showNat n ++ X⟩) = ⟨pv, showNat n ++ X⟩ := by
    intro pv
    simp only [skipAny, litAny, seps, showNat_lit_none '.' [] pv X n (by decide),
      showNat_lit_none '-' [] pv X n (by decide), showNat_lit_none '_' [] pv X n (by decide)]
  refine ⟨(showNat n).reverse ++ (t.reverse ++ pv), PrevDigit_showNat _ _, ?_⟩
  rcases ht with rfl | rfl | rfl
  · rw [dotted_other pv _ (by simp)]
    simp only [readPre, litAny, preKeys, lit_append]
    simp [key, natOr0_showNat n _ X hX, preNormal]
  · rw [dotted_other pv _ (by simp)]
    have h1 : lit ['a'] ⟨pv, ['b'] ++ (showNat n ++ X)⟩ = none := lit_none_head _ _ _ _ (by simp)
    simp only [readPre, litAny, preKeys, h1, lit_append]
    simp [key, natOr0_showNat n _ X hX, preNormal]
  · rw [dotted_other pv _ (by simp)]
    have h1 : lit ['a'] ⟨pv, ['r', 'c'] ++ (showNat n ++ X)⟩ = none :=
      lit_none_head _ _ _ _ (by simp)
    have h2 : lit ['b'] ⟨pv, ['r', 'c'] ++ (showNat n ++ X)⟩ = none :=
      lit_none_head _ _ _ _ (by simp)
    simp only [readPre, litAny, preKeys, h1, h2, lit_append]
    simp [key, natOr0_showNat n _ X hX, preNormal]

theorem digit_preKey (c : Char) (h : isDigit c = true) : (isDigit c || isPreKeyChar c) = true := by
  simp [h]

theorem digit_not_dash (c : Char) (h : isDigit c = true) : (c == '-') = false := by
  cases hc : c == '-' with
  | false => rfl
  | true => simp at hc; subst hc; simp [isDigit] at h

theorem digit_not_dot (c : Char) (h : isDigit c = true) : (c == '.') = false := by
  cases hc : c == '.' with
  | false => rfl
  | true => simp at hc; subst hc; simp [isDigit] at h

/-- Post stage on a text whose next part is a post release. -/
theorem readPost_some (Q : PS) (n : Nat) (pv Y : Text) (hpv : PrevDigit pv)
    (hQ : NearDot Q pv (showPost (some n) ++ Y)) (hY : SufHead Y) :
    ∃ pv', PrevDigit pv' ∧ readPost Q = (some n, ⟨pv', Y⟩) := by
  refine ⟨(showNat n).reverse ++ ('t' :: 's' :: 'o' :: 'p' :: '.' :: pv), PrevDigit_showNat _ _, ?_⟩
  unfold readPost
  rw [skip_near _ digit_preKey (by decide) Q pv _ hQ hpv (sufHead_post _ _ hY)]
  simp only [showPost, List.cons_append, dotted_dot]
  have h1 : lit ['p', 'o', 's', 't'] ⟨'.' :: pv, 'p' :: 'o' :: 's' :: 't' :: (showNat n ++ Y)⟩ =
      some ⟨'t' :: 's' :: 'o' :: 'p' :: '.' :: pv, showNat n ++ Y⟩ := by
    simp [lit, List.isPrefixOf, adv]
  have h2 : ∀ pv, skipAny [['-']] ⟨pv, showNat n ++ Y⟩ = ⟨pv, showNat n ++ Y⟩ := by
    intro pv; simp [skipAny, litAny, showNat_lit_none '-' [] pv Y n (by decide)]
  simp only [litAny, h1, h2, natOr0_showNat n _ Y hY.noDigit]

/-- Not a post release. -/
def NotPost (Y : Text) : Prop := ∀ u, Y ≠ '.' :: 'p' :: u

theorem notPost_dev (d : Option Nat) (Z : Text) (h : NotPost Z) : NotPost (showDev d ++ Z) := by
  cases d with
  | none => exact h
  | some n => intro u; simp [showDev]

theorem notPost_loc (l : Option Text) (t : Text) (h : Tail l t) : NotPost (showLoc l ++ t) := by
  cases l with
  | none =>
    intro u
    rcases h with rfl | ⟨_, v, rfl, _ | _⟩ | ⟨_, c, v, rfl, rfl | rfl⟩ <;> simp [showLoc]
  | some l => intro u; simp [showLoc]

theorem readPost_none (Q : PS) (pv Y : Text) (hpv : PrevDigit pv)
    (hQ : NearDot Q pv Y) (hY : SufHead Y) (hn : NotPost Y) :
    readPost Q = (none, dotted ⟨pv, Y⟩) := by
  unfold readPost
  rw [skip_near _ digit_preKey (by decide) Q pv _ hQ hpv hY]
  rcases hY with rfl | ⟨v, rfl⟩ | ⟨_, v, rfl, _ | _⟩ | ⟨c, v, rfl, hc⟩
  · rw [dotted_other pv _ (by simp)]
    simp [litAny, lit, peekIs]
  · rw [dotted_other pv _ (by simp)]
    simp [litAny, lit, List.isPrefixOf, prevDigit_prev _ false pv _ hpv digit_not_dash]
  · rw [dotted_other pv _ (by simp)]
    simp [litAny, lit, List.isPrefixOf, prevDigit_prev _ false pv _ hpv digit_not_dash]
  · rw [dotted_other pv _ (by simp)]
    simp [litAny, lit, List.isPrefixOf, prevDigit_prev _ false pv _ hpv digit_not_dash]
  · rw [dotted_dot]
    rcases hc with ⟨rfl, w, rfl⟩ | rfl | rfl | rfl
    · exact absurd rfl (hn _)
    · simp [litAny, lit, List.isPrefixOf, prevIs]
    · simp [litAny, lit, List.isPrefixOf, prevIs]
    · simp [litAny, lit, List.isPrefixOf, prevIs]

theorem readDev_some (Q : PS) (n : Nat) (pv Y : Text) (hpv : PrevDigit pv)
    (hQ : NearDot Q pv (showDev (some n) ++ Y)) (hY : SufHead Y) :
    ∃ pv', PrevDigit pv' ∧ readDev Q = (some n, ⟨pv', Y⟩) := by
  refine ⟨(showNat n).reverse ++ ('v' :: 'e' :: 'd' :: '.' :: pv), PrevDigit_showNat _ _, ?_⟩
  unfold readDev
  rw [skip_near _ (fun _ h => h) (by decide) Q pv _ hQ hpv (sufHead_dev _ _ hY)]
  simp only [showDev, List.cons_append, dotted_dot]
  have h1 : lit ['d', 'e', 'v'] ⟨'.' :: pv, 'd' :: 'e' :: 'v' :: (showNat n ++ Y)⟩ =
      some ⟨'v' :: 'e' :: 'd' :: '.' :: pv, showNat n ++ Y⟩ := by
    simp [lit, List.isPrefixOf, adv]
  simp only [h1, natOr0_showNat n _ Y hY.noDigit]

def NotDev (Y : Text) : Prop := ∀ u, Y ≠ '.' :: 'd' :: u

theorem notDev_loc (l : Option Text) (t : Text) (h : Tail l t) : NotDev (showLoc l ++ t) := by
  cases l with
  | none =>
    intro u
    rcases h with rfl | ⟨_, v, rfl, _ | _⟩ | ⟨_, c, v, rfl, rfl | rfl⟩ <;> simp [showLoc]
  | some l => intro u; simp [showLoc]

theorem readDev_none (Q : PS) (pv Y : Text) (hpv : PrevDigit pv)
    (hQ : NearDot Q pv Y) (hY : SufHead Y) (hn : NotDev Y) :
    readDev Q = (none, dotted ⟨pv, Y⟩) := by
  unfold readDev
  rw [skip_near _ (fun _ h => h) (by decide) Q pv _ hQ hpv hY]
  rcases hY with rfl | ⟨v, rfl⟩ | ⟨_, v, rfl, _ | _⟩ | ⟨c, v, rfl, hc⟩
  · rw [dotted_other pv _ (by simp)]
    simp [litAny, lit, peekIs]
  · rw [dotted_other pv _ (by simp)]
    simp [litAny, lit, List.isPrefixOf]
  · rw [dotted_other pv _ (by simp)]
    simp [litAny, lit, List.isPrefixOf]
  · rw [dotted_other pv _ (by simp)]
    simp [litAny, lit, List.isPrefixOf]
  · rw [dotted_dot]
    rcases hc with ⟨rfl, w, rfl⟩ | rfl | rfl | rfl
    · simp [litAny, lit, List.isPrefixOf, prevIs]
    · exact absurd rfl (hn _)
    · simp [litAny, lit, List.isPrefixOf, prevIs]
    · simp [litAny, lit, List.isPrefixOf, prevIs]

/-- Local label and the step back (vp 73-79). -/
def readEnd (p : PS) : Option Text × PS :=
  let (loc, p4) := readLoc p
  (loc, if p4.prevIs (fun c => c == '.') then p4.back else p4)

theorem readEnd_none (Q : PS) (pv t : Text) (hpv : PrevDigit pv) (hQ : NearDot Q pv t)
    (ht : Tail none t) : readEnd Q = (none, ⟨pv, t⟩) := by
  have hp : ∀ t, prevIs (fun c => c == '.') ⟨pv, t⟩ = false := fun t =>
    prevDigit_prev _ false pv _ hpv digit_not_dot
  rcases ht with rfl | ⟨_, v, rfl, _ | _⟩ | ⟨_, c, v, rfl, hc⟩
  · have : Q = ⟨pv, []⟩ := by
      rcases hQ with h | h
      · exact h
      · rw [h, dotted_other pv _ (by simp)]
    subst this
    simp [readEnd, readLoc, lit, hp]
  · have : Q = ⟨pv, ',' :: v⟩ := by
      rcases hQ with h | h
      · exact h
      · rw [h, dotted_other pv _ (by simp)]
    subst this
    simp [readEnd, readLoc, lit, hp, List.isPrefixOf]
  · have : Q = ⟨pv, ';' :: v⟩ := by
      rcases hQ with h | h
      · exact h
      · rw [h, dotted_other pv _ (by simp)]
    subst this
    simp [readEnd, readLoc, lit, hp, List.isPrefixOf]
  · rcases hQ with rfl | rfl
    · simp [readEnd, readLoc, lit, hp, List.isPrefixOf]
    · rw [dotted_dot]
      rcases hc with rfl | rfl <;>
        simp [readEnd, readLoc, lit, List.isPrefixOf, prevIs, back]

theorem label_char (c : Char) (h : isLower c = true ∨ isDigit c = true ∨ c = '.') :
    isLabelChar c = true ∧ (c == '-' || c == '_') = false := by
  have hne : ∀ d : Char, isLower d = false → isDigit d = false → d ≠ '.' → c ≠ d := by
    intro d h1 h2 h3 e; subst e
    rcases h with h | h | h
    · simp [h] at h1
    · simp [h] at h2
    · exact h3 h
  constructor
  · rcases h with h | h | h <;> simp [isLabelChar, isAlnum, h]
  · have h1 := hne '-' (by decide) (by decide) (by decide)
    have h2 := hne '_' (by decide) (by decide) (by decide)
    simp [h1, h2]

theorem normLabel_id (l : Text) (h : ∀ c, c ∈ l → isLower c = true ∨ isDigit c = true ∨ c = '.') :
    normLabel l = l := by
  induction l with
  | nil => rfl
  | cons c cs ih =>
    have h1 := (label_char c (h c (by simp))).2
    have h2 := ih (fun x hx => h x (by simp [hx]))
    simp only [normLabel, List.map_cons] at h2 ⊢
    rw [h2]; simp [h1]

theorem readEnd_some (Q : PS) (l pv t : Text) (hQ : NearDot Q pv ('+' :: (l ++ t)))
    (hl : ∀ c, c ∈ l → isLower c = true ∨ isDigit c = true ∨ c = '.') (ht : Tail (some l) t) :
    ∃ p, readEnd Q = (some l, p) ∧ (l.getLast? ≠ some '.' → p.rest = t) ∧
      (l.getLast? = some '.' → p.rest = '.' :: t) := by
  have : Q = ⟨pv, '+' :: (l ++ t)⟩ := by
    rcases hQ with h | h
    · exact h
    · rw [h, dotted_other pv _ (by simp)]
  subst this
  have ht' : StartsNot (fun c => !!isLabelChar c) t := by
    rcases ht with rfl | ⟨_, v, rfl, _ | _⟩ | ⟨h, _⟩
    · simp
    · simp; decide
    · simp; decide
    · simp at h
  have hu := untilP_append (fun c => !isLabelChar c) ('+' :: pv) l t
    (fun c hc => by simp [(label_char c (hl c hc)).1]) ht'
  have h1 : lit ['+'] ⟨pv, '+' :: (l ++ t)⟩ = some ⟨'+' :: pv, l ++ t⟩ := by
    simp [lit, List.isPrefixOf, adv]
  simp only [readEnd, readLoc, h1, hu, normLabel_id l hl]
  refine ⟨_, rfl, ?_, ?_⟩
  · intro h
    have : prevIs (fun c => c == '.') ⟨l.reverse ++ '+' :: pv, t⟩ = false := by
      cases hr : l.reverse with
      | nil => simp [prevIs]
      | cons c cs =>
        have : l.getLast? = some c := by
          rw [← List.reverse_reverse l, hr]; simp
        rw [this] at h; simp at h
        simp [prevIs, h]
    simp [this]
  · intro h
    cases hr : l.reverse with
    | nil => simp at hr; subst hr; simp at h
    | cons c cs =>
      have h2 : l.getLast? = some c := by
        rw [← List.reverse_reverse l, hr]; simp
      rw [h2] at h; simp at h; subst h
      simp [prevIs, back]

theorem readSuffix_eq (e : Option Nat) (r : List Nat) (p : PS) :
    readSuffix e r p =
      ({ release := r, epoch := e, pre := (readPre p).1, post := (readPost (readPre p).2).1,
         dev := (readDev (readPost (readPre p).2).2).1,
         loc := (readEnd (readDev (readPost (readPre p).2).2).2).1 },
       (readEnd (readDev (readPost (readPre p).2).2).2).2) := by
  unfold readSuffix readEnd
  rcases readPre p with ⟨a, p1⟩
  dsimp only

/-- The suffix parser on printed suffixes. -/
theorem readSuffix_show (v : SV) (hv : Printable v) (pv t : Text) (hpv : PrevDigit pv)
    (ht : Tail v.loc t) :
    ∃ p, readSuffix v.epoch v.release (dotted ⟨pv, showPre v.pre ++ (showPost v.post ++
        (showDev v.dev ++ (showLoc v.loc ++ t)))⟩) = (v, p) ∧
      (NoTrailingDot v → p.rest = t) ∧ (¬ NoTrailingDot v → p.rest = '.' :: t) := by
  obtain ⟨r, e, pre, post, dev, loc⟩ := v
  simp only at ht ⊢
  -- stages
  have hZ := sufHead_loc loc t ht
  have hY := sufHead_dev dev _ hZ
  have hX := sufHead_post post _ hY
  -- pre
  obtain ⟨q1, pv1, hpv1, e1, n1⟩ : ∃ q1 pv1, PrevDigit pv1 ∧
      readPre (dotted ⟨pv, showPre pre ++ (showPost post ++ (showDev dev ++ (showLoc loc ++ t)))⟩) =
        (pre, q1) ∧ NearDot q1 pv1 (showPost post ++ (showDev dev ++ (showLoc loc ++ t))) := by
    cases pre with
    | none => exact ⟨_, pv, hpv, readPre_none pv _ hX, Or.inr rfl⟩
    | some x =>
      obtain ⟨tag, n⟩ := x
      obtain ⟨pv', h1, h2⟩ := readPre_some tag n pv _ hX.noDigit (hv.tag tag n rfl)
      refine ⟨_, pv', h1, ?_, Or.inl rfl⟩
      simpa [showPre] using h2
  obtain ⟨q2, pv2, hpv2, e2, n2⟩ : ∃ q2 pv2, PrevDigit pv2 ∧ readPost q1 = (post, q2) ∧
      NearDot q2 pv2 (showDev dev ++ (showLoc loc ++ t)) := by
    cases post with
    | none =>
      exact ⟨_, pv1, hpv1, readPost_none q1 pv1 _ hpv1 n1 hX (notPost_dev _ _ (notPost_loc _ _ ht)),
        Or.inr rfl⟩
    | some n =>
      obtain ⟨pv', h1, h2⟩ := readPost_some q1 n pv1 _ hpv1 n1 hY
      exact ⟨_, pv', h1, h2, Or.inl rfl⟩
  obtain ⟨q3, pv3, hpv3, e3, n3⟩ : ∃ q3 pv3, PrevDigit pv3 ∧ readDev q2 = (dev, q3) ∧
      NearDot q3 pv3 (showLoc loc ++ t) := by
    cases dev with
    | none =>
      exact ⟨_, pv2, hpv2, readDev_none q2 pv2 _ hpv2 n2 hZ (notDev_loc _ _ ht), Or.inr rfl⟩
    | some n =>
      obtain ⟨pv', h1, h2⟩ := readDev_some q2 n pv2 _ hpv2 n2 hZ
      exact ⟨_, pv', h1, h2, Or.inl rfl⟩
  rw [readSuffix_eq, e1, e2, e3]
  dsimp only
  cases loc with
  | none =>
    have h := readEnd_none q3 pv3 t hpv3 n3 ht
    refine ⟨⟨pv3, t⟩, by rw [h], fun _ => rfl, fun h => absurd ?_ h⟩
    intro l hl; simp at hl
  | some l =>
    obtain ⟨p, h, h1, h2⟩ := readEnd_some q3 l pv3 t n3 (hv.label l rfl) ht
    refine ⟨p, by rw [h], fun hn => h1 (hn l rfl), fun hn => h2 ?_⟩
    apply Classical.byContradiction
    intro hc
    exact hn (fun l' hl' => by simp at hl'; subst hl'; exact hc)

theorem show_first (v : SV) (hv : Printable v) (t : Text) :
    ∃ c cs, v.show ++ t = c :: cs ∧ isDigit c = true := by
  obtain ⟨r, e, pre, post, dev, loc⟩ := v
  cases r with
  | nil => exact absurd rfl hv.release
  | cons n ns =>
    cases e with
    | none =>
      obtain ⟨c, cs, h1, h2⟩ := showNat_cons n
      exact ⟨c, _, by simp [SV.show, showEpoch, showRelease_cons, h1]; rfl, h2⟩
    | some e =>
      obtain ⟨c, cs, h1, h2⟩ := showNat_cons e
      exact ⟨c, _, by simp [SV.show, showEpoch, h1]; rfl, h2⟩

theorem lit_digit_none (k : Char) (s pv : Text) (c : Char) (cs : Text) (hc : isDigit c = true)
    (hk : isDigit k = false) : lit (k :: s) ⟨pv, c :: cs⟩ = none := by
  apply lit_none_head
  intro d ds h
  simp at h
  intro e; rw [← e, ← h.1, hc] at hk; simp at hk

theorem digit_not_space (c : Char) (h : isDigit c = true) : isSpace c = false := by
  simp [isDigit] at h
  simp [isSpace]; omega

/-- The version parser on a printed version followed by one of the tails. -/
theorem readVersion_show (v : SV) (hv : Printable v) (pv t : Text) (ht : Tail v.loc t) :
    ∃ p, readVersion ⟨pv, v.show ++ t⟩ = some (v, p) ∧ (NoTrailingDot v → p.rest = t) ∧
      (¬ NoTrailingDot v → p.rest = '.' :: t) := by
  obtain ⟨c, cs, hs, hc⟩ := show_first v hv t
  have hX := sufHead_post v.post _ (sufHead_dev v.dev _ (sufHead_loc v.loc t ht))
  have hR : AfterRelease (showPre v.pre ++ (showPost v.post ++ (showDev v.dev ++
      (showLoc v.loc ++ t)))) ∧ ∀ u, showPre v.pre ++ (showPost v.post ++ (showDev v.dev ++
      (showLoc v.loc ++ t))) ≠ '!' :: u := by
    cases hp : v.pre with
    | none =>
      refine ⟨hX.after, ?_⟩
      intro u
      simp only [showPre, List.nil_append]
      rcases hX with h | ⟨_, h⟩ | ⟨_, _, h, _ | _⟩ | ⟨_, _, h, _⟩ <;> rw [h] <;> simp
    | some x =>
      obtain ⟨tag, n⟩ := x
      rcases hv.tag tag n hp with rfl | rfl | rfl
      · exact ⟨⟨by simp [showPre]; decide, by simp [showPre]⟩, by simp [showPre]⟩
      · exact ⟨⟨by simp [showPre]; decide, by simp [showPre]⟩, by simp [showPre]⟩
      · exact ⟨⟨by simp [showPre]; decide, by simp [showPre]⟩, by simp [showPre]⟩
  obtain ⟨pv', hpv', hr⟩ := readRelease_show v.epoch v.release pv _ hv.release hR.1 hR.2
  obtain ⟨p, hsuf, h1, h2⟩ := readSuffix_show v hv pv' t hpv' ht
  have hws : ws ⟨pv, v.show ++ t⟩ = ⟨pv, v.show ++ t⟩ := by
    rw [hs]; exact ws_none _ _ (digit_not_space c hc)
  have hl : ∀ k s, isDigit k = false → lit (k :: s) ⟨pv, v.show ++ t⟩ = none := by
    intro k s hk; rw [hs]; exact lit_digit_none k s pv c cs hc hk
  have hrel : readRelease ⟨pv, v.show ++ t⟩ =
      some (v.epoch, v.release, dotted ⟨pv', showPre v.pre ++ (showPost v.post ++ (showDev v.dev ++
      (showLoc v.loc ++ t)))⟩) := by
    rw [← hr]; simp [SV.show, List.append_assoc]
  have hrest : StartsNot isSpace p.rest := by
    by_cases hn : NoTrailingDot v
    · rw [h1 hn]
      rcases ht with rfl | ⟨_, _, rfl, _ | _⟩ | ⟨_, _, _, rfl, _⟩ <;> simp <;> decide
    · rw [h2 hn]; simp; decide
  have hpw : p.ws = p := by
    obtain ⟨a, b⟩ := p
    exact ws_none a b hrest
  refine ⟨p, ?_, h1, h2⟩
  simp only [readVersion, hws, litWs, hl '(' [] (by decide), openQuote, hl '\'' [] (by decide),
    hl '"' [] (by decide), skipAny, litAny, hl 'v' [] (by decide), hrel, hsuf, hpw]
  simp [hpw]

end Pkm
