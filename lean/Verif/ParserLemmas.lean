import Verif.Parser
set_option linter.unusedVariables false
set_option linter.unusedSimpArgs false
/-
Facts about the parser primitives and about decimal numbers.
-/
namespace Pkm

theorem digitChar_toNat (d : Nat) (h : d < 10) : (digitChar d).toNat = 48 + d := by
  have : d = 0 ∨ d = 1 ∨ d = 2 ∨ d = 3 ∨ d = 4 ∨ d = 5 ∨ d = 6 ∨ d = 7 ∨ d = 8 ∨ d = 9 := by omega
  rcases this with rfl | rfl | rfl | rfl | rfl | rfl | rfl | rfl | rfl | rfl <;> decide

theorem digitChar_isDigit (d : Nat) (h : d < 10) : isDigit (digitChar d) = true := by
  simp [isDigit, digitChar_toNat d h]; omega

theorem showNatF_digits (f n : Nat) : ∀ c, c ∈ showNatF f n → isDigit c = true := by
  induction f generalizing n with
  | zero => simp [showNatF]
  | succ f ih =>
    intro c hc
    simp only [showNatF] at hc
    split at hc
    · simp at hc; subst hc; exact digitChar_isDigit n (by omega)
    · simp at hc
      rcases hc with hc | hc
      · exact ih _ c hc
      · subst hc; exact digitChar_isDigit _ (by omega)

theorem showNat_digits (n : Nat) : ∀ c, c ∈ showNat n → isDigit c = true := showNatF_digits _ n

theorem showNatF_ne (f n : Nat) : showNatF (f + 1) n ≠ [] := by
  simp only [showNatF]; split <;> simp

theorem showNat_ne (n : Nat) : showNat n ≠ [] := showNatF_ne _ _

theorem toNat_append (a : Text) (c : Char) : PS.toNat (a ++ [c]) = 10 * PS.toNat a + (c.toNat - 48) := by
  simp [PS.toNat, List.foldl_append]

theorem toNat_showNatF (f n : Nat) (h : n < f) : PS.toNat (showNatF f n) = n := by
  induction f generalizing n with
  | zero => omega
  | succ f ih =>
    simp only [showNatF]
    split
    · rename_i hn
      simp [PS.toNat, digitChar_toNat n hn]
    · rename_i hn
      rw [toNat_append, ih _ (by omega), digitChar_toNat _ (by omega)]
      omega

theorem toNat_showNat (n : Nat) : PS.toNat (showNat n) = n := toNat_showNatF _ n (by omega)

theorem showNat_inj {a b : Nat} (h : showNat a = showNat b) : a = b := by
  rw [← toNat_showNat a, h, toNat_showNat]

/-- `showNat n` starts with a digit. -/
theorem showNat_cons (n : Nat) : ∃ c cs, showNat n = c :: cs ∧ isDigit c = true := by
  cases h : showNat n with
  | nil => exact absurd h (showNat_ne n)
  | cons c cs => exact ⟨c, cs, rfl, showNat_digits n c (by simp [h])⟩

/-- `showNat n` ends with a digit. -/
theorem showNat_reverse_cons (n : Nat) : ∃ c cs, (showNat n).reverse = c :: cs ∧ isDigit c = true := by
  cases h : (showNat n).reverse with
  | nil => simp at h; exact absurd h (showNat_ne n)
  | cons c cs => exact ⟨c, cs, rfl, showNat_digits n c (by rw [← List.mem_reverse, h]; simp)⟩

/-- The text is empty or starts with a character outside the class. -/
def StartsNot (f : Char → Bool) : Text → Prop
  | [] => True
  | c :: _ => f c = false

@[simp] theorem startsNot_nil (f : Char → Bool) : StartsNot f [] := trivial
@[simp] theorem startsNot_cons (f : Char → Bool) (c cs) : StartsNot f (c :: cs) ↔ f c = false := Iff.rfl

theorem takeWhile_append_stop (f : Char → Bool) (a b : Text) (ha : ∀ c, c ∈ a → f c = true)
    (hb : StartsNot f b) : (a ++ b).takeWhile f = a ∧ (a ++ b).dropWhile f = b := by
  induction a with
  | nil =>
    cases b with
    | nil => simp
    | cons c cs => simp at hb; simp [hb]
  | cons c cs ih =>
    have := ih (fun x hx => ha x (by simp [hx]))
    simp [ha c (by simp), this]

namespace PS

theorem untilP_append (stop : Char → Bool) (pv a b : Text) (ha : ∀ c, c ∈ a → stop c = false)
    (hb : StartsNot (fun c => !stop c) b) :
    untilP stop ⟨pv, a ++ b⟩ = (a, ⟨a.reverse ++ pv, b⟩) := by
  have := takeWhile_append_stop (fun c => !stop c) a b (fun c hc => by simp [ha c hc]) hb
  simp [untilP, this]

theorem readNat_showNat (n : Nat) (pv r : Text) (hr : StartsNot isDigit r) :
    readNat ⟨pv, showNat n ++ r⟩ = some (n, ⟨(showNat n).reverse ++ pv, r⟩) := by
  have := untilP_append (fun c => !isDigit c) pv (showNat n) r
    (fun c hc => by simp [showNat_digits n c hc]) (by cases r <;> simp_all)
  simp [readNat, this, showNat_ne, toNat_showNat]

theorem readNat_none (pv r : Text) (hr : StartsNot isDigit r) : readNat ⟨pv, r⟩ = none := by
  cases r with
  | nil => simp [readNat, untilP]
  | cons c cs => simp at hr; simp [readNat, untilP, hr]

theorem natOr0_showNat (n : Nat) (pv r : Text) (hr : StartsNot isDigit r) :
    natOr0 ⟨pv, showNat n ++ r⟩ = (n, ⟨(showNat n).reverse ++ pv, r⟩) := by
  simp [natOr0, readNat_showNat n pv r hr]

theorem adv_append (s pv r : Text) : adv s.length ⟨pv, s ++ r⟩ = ⟨s.reverse ++ pv, r⟩ := by
  induction s generalizing pv with
  | nil => rfl
  | cons c cs ih => simp [adv, ih]

theorem lit_append (s pv r : Text) : lit s ⟨pv, s ++ r⟩ = some ⟨s.reverse ++ pv, r⟩ := by
  have : s.isPrefixOf (s ++ r) = true := by simp
  simp only [lit, this, if_true, adv_append]

theorem lit_none_head (c : Char) (s pv r : Text) (h : ∀ d ds, r = d :: ds → d ≠ c) :
    lit (c :: s) ⟨pv, r⟩ = none := by
  cases r with
  | nil => simp [lit]
  | cons d ds =>
    have := h d ds rfl
    simp [lit, List.isPrefixOf, Ne.symm this]

theorem ws_none (pv r : Text) (h : StartsNot isSpace r) : ws ⟨pv, r⟩ = ⟨pv, r⟩ := by
  cases r with
  | nil => simp [ws, untilP]
  | cons c cs => simp at h; simp [ws, untilP, h]

/-- Consuming and remaining text add up to the whole text. -/
def text (p : PS) : Text := p.prev.reverse ++ p.rest

end PS
end Pkm
