import Verif.VersionText.Lemmas
set_option linter.unusedVariables false
set_option linter.unusedSimpArgs false
/-
Every version the parser returns is in normal form; printed versions are not changed by `lower`.
-/
namespace Pkm
open PS Spec

/-! ### the remaining text only shrinks -/

/-- All remaining characters satisfy `f`. -/
def AllRest (f : Char → Prop) (p : PS) : Prop := ∀ c, c ∈ p.rest → f c

section
variable {f : Char → Prop}

theorem AllRest.adv {p : PS} (n : Nat) (h : AllRest f p) : AllRest f (p.adv n) := by
  induction n generalizing p with
  | zero => exact h
  | succ n ih =>
    obtain ⟨pv, rest⟩ := p
    cases rest with
    | nil => exact h
    | cons c cs => exact ih (fun x hx => h x (by simp [hx]))

theorem AllRest.lit {p q : PS} {s : Text} (h : AllRest f p) (e : p.lit s = some q) : AllRest f q := by
  simp only [PS.lit] at e
  split at e
  · simp at e; subst e; exact h.adv _
  · simp at e

theorem AllRest.litAny {p q : PS} {ss : List Text} {s : Text} (h : AllRest f p)
    (e : p.litAny ss = some (s, q)) : AllRest f q := by
  induction ss with
  | nil => simp [PS.litAny] at e
  | cons a as ih =>
    simp only [PS.litAny] at e
    split at e
    · rename_i q' hq; simp at e; rw [← e.2]; exact h.lit hq
    · exact ih e

theorem AllRest.skipAny {p : PS} {ss : List Text} (h : AllRest f p) : AllRest f (p.skipAny ss) := by
  simp only [PS.skipAny]
  split
  · rename_i hq; exact h.litAny hq
  · exact h

theorem AllRest.untilP {p : PS} {stop : Char → Bool} (h : AllRest f p) :
    AllRest f (p.untilP stop).2 := by
  intro c hc
  exact h c ((List.dropWhile_suffix _).subset hc)

theorem AllRest.untilP' {p : PS} {stop : Char → Bool} (h : AllRest f p) :
    ∀ c, c ∈ (p.untilP stop).1 → f c ∧ stop c = false := by
  intro c hc
  simp only [PS.untilP] at hc
  refine ⟨h c ((List.takeWhile_prefix _).subset hc), ?_⟩
  have := List.all_takeWhile (p := fun c => !stop c) (l := p.rest)
  rw [List.all_eq_true] at this
  simpa using this c hc

theorem AllRest.ws {p : PS} (h : AllRest f p) : AllRest f p.ws := h.untilP

theorem AllRest.litWs {p q : PS} {s t : Text} (h : AllRest f p) (e : p.litWs s = some (t, q)) :
    AllRest f q := by
  simp only [PS.litWs] at e
  split at e
  · simp at e
  · rename_i q' hq; simp at e; rw [← e.2]; exact (h.lit hq).untilP

theorem AllRest.readNat {p q : PS} {n : Nat} (h : AllRest f p) (e : p.readNat = some (n, q)) :
    AllRest f q := by
  simp only [PS.readNat] at e
  split at e
  · simp at e
  · simp at e; rw [← e.2]; exact h.untilP

theorem AllRest.natOr0 {p : PS} (h : AllRest f p) : AllRest f p.natOr0.2 := by
  simp only [PS.natOr0]
  split
  · rename_i hq; exact h.readNat hq
  · exact h

theorem AllRest.readComponents {p : PS} (n : Nat) (acc : List Nat) (h : AllRest f p) :
    AllRest f (readComponents n acc p).2 := by
  induction n generalizing acc p with
  | zero => exact h
  | succ n ih =>
    simp only [Pkm.readComponents]
    split
    · exact h
    · rename_i hq
      split
      · rename_i hq'; exact ih _ ((h.lit hq).readNat hq')
      · exact h.lit hq

theorem AllRest.readRelease {p q : PS} {e : Option Nat} {r : List Nat} (h : AllRest f p)
    (hr : readRelease p = some (e, r, q)) : AllRest f q := by
  simp only [Pkm.readRelease] at hr
  split at hr
  · simp at hr
  · rename_i n q1 h1
    split at hr
    · rename_i q2 h2
      split at hr
      · simp at hr
      · rename_i m q3 h3
        simp at hr; rw [← hr.2.2]
        exact (((h.readNat h1).lit h2).readNat h3).readComponents _ _
    · simp at hr; rw [← hr.2.2]
      exact (h.readNat h1).readComponents _ _

theorem AllRest.readPre {p : PS} (h : AllRest f p) : AllRest f (readPre p).2 := by
  simp only [Pkm.readPre]
  split
  · exact h
  · rename_i hq; exact (h.litAny hq).skipAny.natOr0

theorem AllRest.readPost {p : PS} (h : AllRest f p) : AllRest f (readPost p).2 := by
  have h1 : AllRest f (if p.prevIs (fun c => isDigit c || isPreKeyChar c) then p.skipAny seps
      else p) := by split <;> first | exact h.skipAny | exact h
  simp only [Pkm.readPost]
  generalize (if p.prevIs (fun c => isDigit c || isPreKeyChar c) = true then p.skipAny seps
    else p) = p1 at h1
  split
  · rename_i hq; exact (h1.litAny hq).skipAny.natOr0
  · split
    · exact h1.skipAny.natOr0
    · exact h1

theorem AllRest.readDev {p : PS} (h : AllRest f p) : AllRest f (readDev p).2 := by
  have h1 : AllRest f (if p.prevIs isDigit then p.skipAny seps else p) := by
    split <;> first | exact h.skipAny | exact h
  simp only [Pkm.readDev]
  generalize (if p.prevIs isDigit = true then p.skipAny seps else p) = p1 at h1
  split
  · rename_i hq; exact (h1.lit hq).natOr0
  · exact h1

end

theorem readComponents_ne (n : Nat) (acc : List Nat) (p : PS) (h : acc ≠ []) :
    (readComponents n acc p).1 ≠ [] := by
  induction n generalizing acc p with
  | zero => exact h
  | succ n ih =>
    simp only [readComponents]
    split
    · exact h
    · split
      · exact ih _ _ (by simp)
      · exact h

theorem readRelease_ne {p q : PS} {e : Option Nat} {r : List Nat}
    (hr : readRelease p = some (e, r, q)) : r ≠ [] := by
  simp only [readRelease] at hr
  split at hr
  · simp at hr
  · split at hr
    · split at hr
      · simp at hr
      · simp at hr; rw [← hr.2.1]; exact readComponents_ne _ _ _ (by simp)
    · simp at hr; rw [← hr.2.1]; exact readComponents_ne _ _ _ (by simp)

theorem readPre_tag (p : PS) (t : Text) (n : Nat) (h : (readPre p).1 = some (t, n)) :
    t = ['a'] ∨ t = ['b'] ∨ t = ['r', 'c'] := by
  simp only [readPre] at h
  split at h
  · simp at h
  · simp at h
    rw [← h.1]
    simp only [preNormal]
    repeat' split
    all_goals simp

theorem readEnd_label (p : PS) (hp : AllRest (fun c => isUpper c = false) p) (l : Text)
    (h : (readEnd p).1 = some l) : ∀ c, c ∈ l → isLower c = true ∨ isDigit c = true ∨ c = '.' := by
  simp only [readEnd, readLoc] at h
  split at h
  · simp at h
  · rename_i q hq
    simp at h
    subst h
    intro c hc
    simp only [normLabel, List.mem_map] at hc
    obtain ⟨d, hd, rfl⟩ := hc
    obtain ⟨h1, h2⟩ := (hp.lit hq).untilP' d hd
    simp [isLabelChar, isAlnum] at h2
    split
    · simp
    · rename_i h3
      simp at h3
      grind

theorem readSuffix_printable (e : Option Nat) (r : List Nat) (p : PS) (hr : r ≠ [])
    (hp : AllRest (fun c => isUpper c = false) p) : Printable (readSuffix e r p).1 := by
  rw [readSuffix_eq]
  refine ⟨hr, fun t n h => readPre_tag p t n h, fun l h => ?_⟩
  exact readEnd_label _ hp.readPre.readPost.readDev l h

/-- Every version that the parser returns on a text without upper-case letters is in normal form. -/
theorem readVersion_printable (p q : PS) (v : SV) (hp : AllRest (fun c => isUpper c = false) p)
    (h : readVersion p = some (v, q)) : Printable v := by
  have key : ∀ p0 : PS, AllRest (fun c => isUpper c = false) p0 → ∀ e r p1,
      readRelease p0 = some (e, r, p1) → Printable (readSuffix e r p1).1 := by
    intro p0 h0 e r p1 h1
    exact readSuffix_printable e r p1 (readRelease_ne h1) (h0.readRelease h1)
  have hws := hp.ws
  have hquote : ∀ p0 p1 : PS, ∀ t, AllRest (fun c => isUpper c = false) p0 →
      openQuote p0 = some (t, p1) → AllRest (fun c => isUpper c = false) p1 := by
    intro p0 p1 t h0 hq
    simp only [openQuote] at hq
    split at hq
    · rename_i hq'; simp at hq; subst hq; exact h0.litWs hq'
    · exact h0.litWs hq
  unfold readVersion at h
  cases hb : p.ws.litWs ['('] with
  | none =>
    simp only [hb] at h
    cases ho : openQuote p.ws with
    | none =>
      simp only [ho] at h
      split at h
      · simp at h
      · rename_i e r p1 hrel
        have := key _ hws.skipAny e r p1 hrel
        split at h
        · simp at h
        · simp at h; rw [← h.1]; exact this
    | some x =>
      obtain ⟨t, p0⟩ := x
      simp only [ho] at h
      split at h
      · simp at h
      · rename_i e r p1 hrel
        have := key _ (hquote _ _ _ hws ho).skipAny e r p1 hrel
        split at h
        · simp at h
        · split at h
          · simp at h
          · simp at h; rw [← h.1]; exact this
  | some x =>
    obtain ⟨t0, pb⟩ := x
    have hpb := hws.litWs hb
    simp only [hb] at h
    cases ho : openQuote pb with
    | none =>
      simp only [ho] at h
      split at h
      · simp at h
      · rename_i e r p1 hrel
        have := key _ hpb.skipAny e r p1 hrel
        split at h
        · simp at h
        · simp at h; rw [← h.1]; exact this
    | some x =>
      obtain ⟨t, p0⟩ := x
      simp only [ho] at h
      split at h
      · simp at h
      · rename_i e r p1 hrel
        have := key _ (hquote _ _ _ hpb ho).skipAny e r p1 hrel
        split at h
        · simp at h
        · split at h
          · simp at h
          · simp at h; rw [← h.1]; exact this

/-! ### characters of printed versions -/

theorem lowerChar_not_upper (c : Char) : isUpper (lowerChar c) = false := by
  simp only [lowerChar]
  split
  · rename_i h
    simp [isUpper] at h ⊢
    intro h2
    have hv : (c.toNat + 32).isValidChar := by
      left; omega
    have : (Char.ofNat (c.toNat + 32)).toNat = c.toNat + 32 := by
      unfold Char.ofNat
      rw [dif_pos hv]
      rfl
    rw [this] at h2 ⊢
    omega
  · rename_i h; simpa using h

theorem lowerChar_id (c : Char) (h : isUpper c = false) : lowerChar c = c := by
  simp [lowerChar, h]

theorem lower_id (t : Text) (h : ∀ c, c ∈ t → isUpper c = false) : lower t = t := by
  induction t with
  | nil => rfl
  | cons c cs ih =>
    have := ih (fun x hx => h x (by simp [hx]))
    simp only [lower, List.map_cons] at this ⊢
    rw [this, lowerChar_id c (h c (by simp))]

theorem lower_not_upper (t : Text) : ∀ c, c ∈ lower t → isUpper c = false := by
  intro c hc
  simp only [lower, List.mem_map] at hc
  obtain ⟨d, _, rfl⟩ := hc
  exact lowerChar_not_upper d

/-- Characters that occur in printed versions. -/
def isShowChar (c : Char) : Bool := isDigit c || isLower c || c == '!' || c == '.' || c == '+'

theorem showNat_chars (n : Nat) : ∀ c, c ∈ showNat n → isShowChar c = true := by
  intro c hc; simp [isShowChar, showNat_digits n c hc]

theorem moreComponents_chars (ns : List Nat) : ∀ c, c ∈ moreComponents ns → isShowChar c = true := by
  induction ns with
  | nil => simp [moreComponents]
  | cons n ns ih =>
    intro c hc
    simp [moreComponents] at hc
    rcases hc with rfl | hc | hc
    · decide
    · exact showNat_chars n c hc
    · exact ih c hc

theorem show_chars (v : SV) (hv : Printable v) : ∀ c, c ∈ v.show → isShowChar c = true := by
  intro c hc
  simp only [SV.show, List.mem_append] at hc
  rcases hc with hc | hc | hc | hc | hc | hc
  · cases he : v.epoch with
    | none => simp [he, showEpoch] at hc
    | some e =>
      simp [he, showEpoch] at hc
      rcases hc with hc | rfl
      · exact showNat_chars e c hc
      · decide
  · cases hr : v.release with
    | nil => simp [hr, showRelease] at hc
    | cons n ns =>
      rw [hr, showRelease_cons] at hc
      simp at hc
      rcases hc with hc | hc
      · exact showNat_chars n c hc
      · exact moreComponents_chars ns c hc
  · cases hp : v.pre with
    | none => simp [hp, showPre] at hc
    | some x =>
      obtain ⟨t, n⟩ := x
      simp [hp, showPre] at hc
      rcases hc with hc | hc
      · rcases hv.tag t n hp with rfl | rfl | rfl <;> simp at hc
        · subst hc; decide
        · subst hc; decide
        · rcases hc with rfl | rfl <;> decide
      · exact showNat_chars n c hc
  · cases hp : v.post with
    | none => simp [hp, showPost] at hc
    | some n =>
      simp [hp, showPost] at hc
      rcases hc with rfl | rfl | rfl | rfl | rfl | hc
      · decide
      · decide
      · decide
      · decide
      · decide
      · exact showNat_chars n c hc
  · cases hp : v.dev with
    | none => simp [hp, showDev] at hc
    | some n =>
      simp [hp, showDev] at hc
      rcases hc with rfl | rfl | rfl | rfl | hc
      · decide
      · decide
      · decide
      · decide
      · exact showNat_chars n c hc
  · cases hp : v.loc with
    | none => simp [hp, showLoc] at hc
    | some l =>
      simp [hp, showLoc] at hc
      rcases hc with rfl | hc
      · decide
      · rcases hv.label l hp c hc with h | h | h <;> simp [isShowChar, h]

theorem showChar_not_upper (c : Char) (h : isShowChar c = true) : isUpper c = false := by
  simp [isShowChar, isDigit, isLower] at h
  simp [isUpper]
  rcases h with (((h | h) | h) | h) | h
  · omega
  · omega
  · subst h; decide
  · subst h; decide
  · subst h; decide

theorem contains_false (k : Char) (s t : Text) (h : ∀ c, c ∈ t → c ≠ k) : contains (k :: s) t = false := by
  induction t with
  | nil => rfl
  | cons c cs ih =>
    simp [contains, List.isPrefixOf, Ne.symm (h c (by simp)), ih (fun x hx => h x (by simp [hx]))]

end Pkm
