import Verif.Torch.Model
import Verif.Tags.Lemmas
import Verif.Version.Props
import Verif.Repos.IndexProps
set_option linter.unusedVariables false
set_option linter.unusedSimpArgs false
/-
C91: what the repository for torch offers, and in which order.
-/
namespace Pkm
open Tags

namespace Spec

/-- A build without CUDA: no label, or `cpu`. -/
def CpuBuild (v : SV) : Prop := v.loc = none ∨ v.loc = some [] ∨ v.loc = some t!"cpu"

/-- A build for a version of CUDA: its label is `cu` and the digits of this version. -/
def CudaBuild (v c : SV) : Prop := v.loc = some (t!"cu" ++ (c.release.map showNat).flatten)

end Spec
open Spec

namespace Torch

variable {P : Type}

theorem isCpu_iff (v : SV) : isCpu v.loc = true ↔ CpuBuild v := by
  unfold isCpu CpuBuild
  cases hl : v.loc with
  | none => simp
  | some l =>
    cases l with
    | nil => simp
    | cons c l => simp

theorem isCpu_cuda (v c : SV) (h : CudaBuild v c) : isCpu v.loc = false := by
  unfold CudaBuild at h
  rw [h]
  unfold isCpu
  rw [Bool.or_eq_false_iff]
  refine ⟨?_, by simp⟩
  rw [beq_eq_false_iff_ne]
  simp

theorem keep_iff (cudas : List SV) (allowCpu : Bool) (v : SV) :
    keep cudas allowCpu v = true ↔ (CpuBuild v ∧ allowCpu = true) ∨ ∃ c ∈ cudas, CudaBuild v c := by
  unfold keep
  by_cases hc : isCpu v.loc = true
  · rw [if_pos hc]
    constructor
    · intro h; exact .inl ⟨(isCpu_iff v).mp hc, h⟩
    · rintro (⟨_, h⟩ | ⟨c, _, h⟩)
      · exact h
      · rw [isCpu_cuda v c h] at hc; cases hc
  · rw [if_neg hc]
    have hn : ¬ CpuBuild v := fun h => hc ((isCpu_iff v).mpr h)
    obtain ⟨l, hl⟩ : ∃ l, v.loc = some l := by
      cases h : v.loc with
      | none => exact absurd (.inl h) hn
      | some l => exact ⟨l, rfl⟩
    rw [hl]
    simp only [Option.getD_some]
    constructor
    · intro h
      split at h
      · right
        simp only [List.contains_iff_mem, List.mem_map] at h
        obtain ⟨c, hc, e⟩ := h
        exact ⟨c, hc, by unfold CudaBuild; rw [hl, ← e]; rfl⟩
      · cases h
    · rintro (⟨h, _⟩ | ⟨c, hc, h⟩)
      · exact absurd h hn
      · unfold CudaBuild at h
        rw [hl] at h
        simp only [Option.some.injEq] at h
        rw [if_pos (by rw [List.isPrefixOf_iff_prefix, h]; exact List.prefix_append _ _)]
        simp only [List.contains_iff_mem, List.mem_map]
        exact ⟨c, hc, h.symm⟩

theorem kept_spec (cudas : List SV) (allowCpu : Bool) (version : P → Ver) : ∀ (ps : List P) (l : List (SV × P)),
    kept cudas allowCpu version ps = .ok l →
      ∀ v p, (v, p) ∈ l ↔ p ∈ ps ∧ version p = .std v ∧ keep cudas allowCpu v = true
  | [], l, h => by
    simp only [kept, Except.ok.injEq] at h
    subst h
    simp
  | q :: ps, l, h => by
    simp only [kept] at h
    split at h
    · rename_i w hw
      split at h
      · cases h
      · rename_i r hr
        have ih := kept_spec cudas allowCpu version ps r hr
        simp only [Except.ok.injEq] at h
        subst h
        intro v p
        split
        · rename_i hk
          rw [List.mem_cons, ih, List.mem_cons, Prod.mk.injEq]
          constructor
          · rintro (⟨rfl, rfl⟩ | ⟨h1, h2, h3⟩)
            · exact ⟨.inl rfl, hw, hk⟩
            · exact ⟨.inr h1, h2, h3⟩
          · rintro ⟨rfl | h1, h2, h3⟩
            · rw [hw] at h2; cases h2; exact .inl ⟨rfl, rfl⟩
            · exact .inr ⟨h1, h2, h3⟩
        · rename_i hk
          rw [ih, List.mem_cons]
          constructor
          · rintro ⟨h1, h2, h3⟩; exact ⟨.inr h1, h2, h3⟩
          · rintro ⟨rfl | h1, h2, h3⟩
            · rw [hw] at h2; cases h2; exact absurd h3 hk
            · exact ⟨h1, h2, h3⟩
    · cases h

theorem kept_ok (cudas : List SV) (allowCpu : Bool) (version : P → Ver) : ∀ (ps : List P), (∀ p ∈ ps, ∃ v, version p = .std v) →
    ∃ l, kept cudas allowCpu version ps = .ok l
  | [], _ => ⟨[], rfl⟩
  | p :: ps, h => by
    obtain ⟨v, hv⟩ := h p (by simp)
    obtain ⟨l, hl⟩ := kept_ok cudas allowCpu version ps (fun q hq => h q (by simp [hq]))
    simp only [kept, hv, hl]
    exact ⟨_, rfl⟩

theorem keyed_spec : ∀ (l : List (SV × P)) (ks : List ((Nat × SV × Nat) × P)), keyed l = .ok ks →
    (∀ k p, (k, p) ∈ ks → key k.2.1 = .ok k) ∧ ks.map (fun e => (e.1.2.1, e.2)) = l
  | [], ks, h => by
    simp only [keyed, Except.ok.injEq] at h
    subst h
    simp
  | (v, p) :: l, ks, h => by
    simp only [keyed] at h
    split at h
    · cases h
    · rename_i k hk
      split at h
      · cases h
      · rename_i r hr
        obtain ⟨h1, h2⟩ := keyed_spec l r hr
        simp only [Except.ok.injEq] at h
        subst h
        have hkv : k.2.1 = v := by
          simp only [key] at hk
          split at hk
          · split at hk
            · cases hk
            · simp only [Except.ok.injEq] at hk; rw [← hk]
          · simp only [Except.ok.injEq] at hk; rw [← hk]
        refine ⟨?_, by simp [hkv, h2]⟩
        intro k' p' hm
        rcases List.mem_cons.mp hm with e | e
        · cases e; rw [hkv]; exact hk
        · exact h1 k' p' e

/-- Digits of releases. -/
theorem release_digits (r : List Nat) : ∀ c ∈ (r.map showNat).flatten, isDigit c = true := by
  intro c hc
  simp only [List.mem_flatten, List.mem_map] at hc
  obtain ⟨t, ⟨n, _, rfl⟩, hc⟩ := hc
  exact showNat_digits n c hc

theorem release_ne (r : List Nat) (h : r ≠ []) : (r.map showNat).flatten ≠ [] := by
  cases r with
  | nil => exact absurd rfl h
  | cons n r =>
    simp only [List.map_cons, List.flatten_cons]
    intro e
    exact showNat_ne n (List.append_eq_nil_iff.mp e).1

theorem key_cuda (v c : SV) (h : CudaBuild v c) (hr : c.release ≠ []) :
    key v = .ok (1, v, PS.toNat (c.release.map showNat).flatten) := by
  have hc := isCpu_cuda v c h
  unfold CudaBuild at h
  unfold key
  simp only
  rw [hc, h]
  simp only [Option.getD_some]
  rw [if_pos (by rw [List.isPrefixOf_iff_prefix]; exact List.prefix_append _ _)]
  have : (t!"cu" ++ (c.release.map showNat).flatten).drop 2 = (c.release.map showNat).flatten := rfl
  rw [this, pyInt_digits _ (release_ne _ hr) (release_digits _)]
  simp

theorem key_cpu (v : SV) (h : CpuBuild v) : key v = .ok (0, v, 0) := by
  have hc := (isCpu_iff v).mpr h
  unfold key
  simp only
  rw [hc]
  have : t!"cu".isPrefixOf (v.loc.getD []) = false := by
    rcases h with h | h | h <;> rw [h] <;> rfl
  rw [this]
  simp

theorem keyed_ok : ∀ (l : List (SV × P)), (∀ e ∈ l, ∃ k, key e.1 = .ok k) → ∃ ks, keyed l = .ok ks
  | [], _ => ⟨[], rfl⟩
  | (v, p) :: l, h => by
    obtain ⟨k, hk⟩ := h (v, p) (by simp)
    obtain ⟨ks, hks⟩ := keyed_ok l (fun e he => h e (by simp [he]))
    simp only at hk
    simp only [keyed, hk, hks]
    exact ⟨_, rfl⟩

/-! ### the order -/

/-- Labels that are single words. -/
def isWord (t : Text) : Bool := !t.contains '.' && !isNumeric t

/-- A version with such a label. -/
def tidy (v : SV) : SV := { v with loc := some (if isWord (v.loc.getD []) then v.loc.getD [] else []) }

theorem tidy_word (v : SV) : ∃ t, (tidy v).loc = some t ∧ isWord t = true := by
  unfold tidy
  by_cases h : isWord (v.loc.getD []) = true
  · exact ⟨v.loc.getD [], by simp [h], h⟩
  · exact ⟨[], by simp [h], rfl⟩

theorem word_no_clash {x y : Text} (hx : isWord x = true) (hy : isWord y = true) : ¬ LabelClash (some x) (some y) := by
  rintro (⟨p, m, n, s, t, h1, h2, hmn, hm, hn⟩ | ⟨h, _⟩ | ⟨_, h⟩)
  · simp only [isWord, Bool.and_eq_true, Bool.not_eq_true', List.contains_eq_mem, decide_eq_false_iff_not] at hx hy
    simp only [Option.getD_some] at h1 h2
    rw [Tags.splitOn_one _ _ hx.1] at h1
    cases p with
    | nil =>
      simp only [List.nil_append, List.cons.injEq] at h1
      rw [← h1.1, hx.2] at hm
      cases hm
    | cons q p =>
      have := congrArg List.length h1
      simp at this
  · cases h
  · cases h

theorem tidy_lt (a b : SV) (ha : isWord (a.loc.getD []) = true) (hb : isWord (b.loc.getD []) = true) :
    (tidy a).lt (tidy b) = a.lt b := by
  rw [SV.lt_eq_casc, SV.lt_eq_casc]
  simp only [SV.cascL, lexL, tidy, SV.epoch0, SV.localSegments, ha, hb, if_true, Option.getD_some]
  rfl

theorem tidy_neg_trans (a b c : SV) (h1 : (tidy a).lt (tidy b) = false) (h2 : (tidy b).lt (tidy c) = false) :
    (tidy a).lt (tidy c) = false := by
  cases h : (tidy a).lt (tidy c) with
  | false => rfl
  | true =>
    obtain ⟨x, hx, wx⟩ := tidy_word a
    obtain ⟨y, hy, wy⟩ := tidy_word b
    have hab : ¬ (SamePublic (tidy a) (tidy b) ∧ LabelClash (tidy a).loc (tidy b).loc) := by
      rintro ⟨_, hc⟩
      rw [hx, hy] at hc
      exact word_no_clash wx wy hc
    rcases (std_trichotomy_iff _ _).2 hab with ⟨k, _, _⟩ | ⟨_, k, _⟩ | ⟨_, _, k⟩
    · rw [k] at h1; cases h1
    · rw [SV.eqv_stage.congrL _ _ _ k, h2] at h; cases h
    · have := SV.eqv_stage.ltTrans _ _ _ k h; rw [this] at h2; cases h2

/-- The order of the keys, for all versions. -/
def tidyLt (a b : SV) : Bool :=
  if isCpu a.loc = isCpu b.loc then (tidy a).lt (tidy b) else isCpu a.loc

theorem tidyLt_asymm (a b : SV) (h : tidyLt a b = true) : tidyLt b a = false := by
  unfold tidyLt at *
  by_cases e : isCpu a.loc = isCpu b.loc
  · rw [if_pos e] at h
    rw [if_pos e.symm]
    exact SV.eqv_stage.asymm _ _ h
  · rw [if_neg e] at h
    rw [if_neg (Ne.symm e)]
    cases hb : isCpu b.loc with
    | false => rfl
    | true => rw [h, hb] at e; exact absurd rfl e

theorem tidyLt_neg_trans (a b c : SV) (h1 : tidyLt a b = false) (h2 : tidyLt b c = false) : tidyLt a c = false := by
  unfold tidyLt at *
  cases ha : isCpu a.loc <;> cases hb : isCpu b.loc <;> cases hc : isCpu c.loc <;>
    simp only [ha, hb, hc, if_true, Bool.false_eq_true, Bool.true_eq_false, if_false] at h1 h2 ⊢ <;>
    first | exact tidy_neg_trans a b c h1 h2 | cases h1 | cases h2 | skip

/-- Versions that are kept. -/
def Known (v : SV) : Prop := CpuBuild v ∨ ∃ c : SV, CudaBuild v c ∧ c.release ≠ []

theorem known_word (v : SV) (h : Known v) : isWord (v.loc.getD []) = true := by
  rcases h with (h | h | h) | ⟨c, h, _⟩
  · rw [h]; rfl
  · rw [h]; rfl
  · rw [h]; decide
  · unfold CudaBuild at h
    rw [h]
    simp only [Option.getD_some, isWord, Bool.and_eq_true, Bool.not_eq_true', List.contains_eq_mem, decide_eq_false_iff_not]
    refine ⟨?_, ?_⟩
    · intro hm
      rcases List.mem_append.mp hm with h1 | h1
      · exact absurd h1 (by decide)
      · have := release_digits _ _ h1
        exact absurd this (by decide)
    · unfold isNumeric
      rfl

theorem keyLt_tidy (a b : SV) (ka kb : Nat × SV × Nat) (ha : Known a) (hb : Known b) (hka : key a = .ok ka) (hkb : key b = .ok kb) :
    keyLt ka kb = tidyLt a b := by
  have main : ∀ (v : SV) (k : Nat × SV × Nat), Known v → key v = .ok k →
      k.2.1 = v ∧ k.1 = (if isCpu v.loc then 0 else 1) ∧ ∀ (w : SV) k', Known w → key w = .ok k' → v.loc = w.loc → k.2.2 = k'.2.2 := by
    intro v k hv hk
    simp only [key] at hk
    refine ⟨?_, ?_, ?_⟩
    · split at hk
      · split at hk
        · cases hk
        · simp only [Except.ok.injEq] at hk; rw [← hk]
      · simp only [Except.ok.injEq] at hk; rw [← hk]
    · split at hk
      · split at hk
        · cases hk
        · simp only [Except.ok.injEq] at hk; rw [← hk]
      · simp only [Except.ok.injEq] at hk; rw [← hk]
    · intro w k' hw hk' e
      simp only [key] at hk'
      rw [← e] at hk'
      split at hk
      · rename_i hp
        rw [if_pos hp] at hk'
        split at hk
        · cases hk
        · rename_i n hn
          rw [hn] at hk'
          simp only [Except.ok.injEq] at hk hk'
          rw [← hk, ← hk']
      · rename_i hp
        rw [if_neg hp] at hk'
        simp only [Except.ok.injEq] at hk hk'
        rw [← hk, ← hk']
  obtain ⟨a1, a2, a3⟩ := main a ka ha hka
  obtain ⟨b1, b2, _⟩ := main b kb hb hkb
  have hlt := tidy_lt a b (known_word a ha) (known_word b hb)
  unfold keyLt tidyLt
  rw [a1, b1, a2, b2]
  by_cases e : isCpu a.loc = isCpu b.loc
  · rw [if_pos e, e, if_neg (by simp), hlt]
    cases he : a.eqv b with
    | false => simp
    | true =>
      have hl : a.loc = b.loc := ((SV.eqv_iff _ _).mp he).2
      have hnl : a.lt b = false := by
        cases h : a.lt b with
        | false => rfl
        | true => have := SV.eqv_stage.ne _ _ h; rw [he] at this; cases this
      simp [a3 b kb hb hkb hl, hnl]
  · rw [if_neg e]
    cases h1 : isCpu a.loc <;> cases h2 : isCpu b.loc <;> simp_all

theorem toNat_cons (c : Char) (a : Text) : PS.toNat (c :: a) = (c.toNat - 48) * 10 ^ a.length + PS.toNat a := by
  have gen : ∀ (a : Text) (n : Nat), a.foldl (fun n c => 10 * n + (c.toNat - 48)) n = n * 10 ^ a.length + PS.toNat a := by
    intro a
    induction a with
    | nil => intro n; simp [PS.toNat]
    | cons d a ih =>
      intro n
      have e : PS.toNat (d :: a) = (d.toNat - 48) * 10 ^ a.length + PS.toNat a := by
        have := ih (10 * 0 + (d.toNat - 48))
        simp only [PS.toNat, List.foldl_cons]
        rw [this]
        simp [PS.toNat]
      rw [List.foldl_cons, ih, e, List.length_cons, Nat.pow_succ, Nat.add_mul]
      have : 10 * n * 10 ^ a.length = n * (10 ^ a.length * 10) := by
        rw [Nat.mul_comm 10 n, Nat.mul_assoc, Nat.mul_comm 10]
      omega
  have := gen a (10 * 0 + (c.toNat - 48))
  simp only [PS.toNat, List.foldl_cons]
  rw [this]
  simp [PS.toNat]

theorem toNat_bound : ∀ (a : Text), (∀ c ∈ a, isDigit c = true) → PS.toNat a < 10 ^ a.length
  | [], _ => by simp [PS.toNat]
  | c :: a, h => by
    have ih := toNat_bound a (fun d hd => h d (by simp [hd]))
    have hc := h c (by simp)
    simp only [isDigit, Bool.and_eq_true, decide_eq_true_eq] at hc
    rw [toNat_cons, List.length_cons, Nat.pow_succ]
    have : (c.toNat - 48) * 10 ^ a.length ≤ 9 * 10 ^ a.length := Nat.mul_le_mul_right _ (by omega)
    omega

/-- Texts of digits of the same length are ordered as their numbers. -/
theorem strLt_digits : ∀ (a b : Text), a.length = b.length → (∀ c ∈ a, isDigit c = true) → (∀ c ∈ b, isDigit c = true) →
    strLt a b = decide (PS.toNat a < PS.toNat b)
  | [], [], _, _, _ => by simp [strLt]
  | [], _ :: _, h, _, _ => by simp at h
  | _ :: _, [], h, _, _ => by simp at h
  | c :: a, d :: b, h, ha, hb => by
    have hl : a.length = b.length := by simpa using h
    have ih := strLt_digits a b hl (fun x hx => ha x (by simp [hx])) (fun x hx => hb x (by simp [hx]))
    have ba := toNat_bound a (fun x hx => ha x (by simp [hx]))
    have bb := toNat_bound b (fun x hx => hb x (by simp [hx]))
    have hc := ha c (by simp)
    have hd := hb d (by simp)
    simp only [isDigit, Bool.and_eq_true, decide_eq_true_eq] at hc hd
    simp only [strLt]
    rw [toNat_cons, toNat_cons, hl]
    rw [hl] at ba
    by_cases e : c = d
    · rw [if_pos e, ih, e]
      simp
    · rw [if_neg e]
      have hne : c.toNat ≠ d.toNat := fun h => e (Char.ext (UInt32.ext h))
      apply decide_eq_decide.mpr
      constructor
      · intro hlt
        have : (c.toNat - 48 + 1) * 10 ^ b.length ≤ (d.toNat - 48) * 10 ^ b.length := Nat.mul_le_mul_right _ (by omega)
        rw [Nat.add_mul] at this
        omega
      · intro hlt
        rcases Nat.lt_or_gt_of_ne hne with h1 | h1
        · exact h1
        · exfalso
          have : (d.toNat - 48 + 1) * 10 ^ b.length ≤ (c.toNat - 48) * 10 ^ b.length := Nat.mul_le_mul_right _ (by omega)
          rw [Nat.add_mul] at this
          omega

theorem showNat_short (n : Nat) (h : n < 10) : (showNat n).length = 1 := by
  have : ∀ m : Fin 10, (showNat m.1).length = 1 := by decide
  exact this ⟨n, h⟩

theorem showNat_two (n : Nat) (h : 10 ≤ n) (h' : n < 100) : (showNat n).length = 2 := by
  have : ∀ m : Fin 100, 10 ≤ m.1 → (showNat m.1).length = 2 := by decide +kernel
  exact this ⟨n, h'⟩ h

/-- What is offered, in order. -/
theorem doMatch_spec (cudas : List SV) (hr : ∀ c ∈ cudas, c.release ≠ []) (allowCpu : Bool) (version : P → Ver) (ps l : List P)
    (h : doMatch cudas allowCpu version ps = .ok l) :
    (∀ p, p ∈ l ↔ p ∈ ps ∧ ∃ v, version p = .std v ∧ keep cudas allowCpu v = true) ∧
    l.Pairwise (fun x y => ∀ v w, version x = .std v → version y = .std w → tidyLt v w = false) := by
  unfold doMatch at h
  split at h
  · cases h
  · rename_i m hm
    split at h
    · cases h
    · rename_i ks hks
      simp only [Except.ok.injEq] at h
      have hkept := kept_spec cudas allowCpu version ps m hm
      obtain ⟨k1, k2⟩ := keyed_spec m ks hks
      have hin : ∀ k p, (k, p) ∈ ks → p ∈ ps ∧ version p = .std k.2.1 ∧ keep cudas allowCpu k.2.1 = true := by
        intro k p hkp
        rw [← hkept, ← k2]
        exact List.mem_map.mpr ⟨(k, p), hkp, rfl⟩
      have hknown : ∀ k p, (k, p) ∈ ks → Known k.2.1 := by
        intro k p hkp
        rcases (keep_iff _ _ _).mp (hin k p hkp).2.2 with ⟨h1, _⟩ | ⟨c, hc, h1⟩
        · exact .inl h1
        · exact .inr ⟨c, h1, hr c hc⟩
      have hcongr : sortBy (fun a b : (Nat × SV × Nat) × P => !keyLt a.1 b.1) ks =
          sortBy (fun a b : (Nat × SV × Nat) × P => !tidyLt a.1.2.1 b.1.2.1) ks := by
        apply Index.sortBy_congr
        intro a ha b hb
        rw [keyLt_tidy _ _ a.1 b.1 (hknown a.1 a.2 ha) (hknown b.1 b.2 hb) (k1 a.1 a.2 ha) (k1 b.1 b.2 hb)]
      rw [hcongr] at h
      have hs := sortBy_sorted (fun a b : (Nat × SV × Nat) × P => !tidyLt a.1.2.1 b.1.2.1)
        (fun a b => by
          cases hab : tidyLt a.1.2.1 b.1.2.1 with
          | false => left; rfl
          | true => right; rw [tidyLt_asymm _ _ hab]; rfl)
        (fun a b c hab hbc => by
          simp only [Bool.not_eq_true'] at *
          exact tidyLt_neg_trans _ _ _ hab hbc) ks
      have hp := sortBy_perm (fun a b : (Nat × SV × Nat) × P => !tidyLt a.1.2.1 b.1.2.1) ks
      subst h
      constructor
      · intro p
        rw [List.mem_map]
        constructor
        · rintro ⟨⟨k, q⟩, hkq, rfl⟩
          obtain ⟨h1, h2, h3⟩ := hin k q (hp.mem_iff.mp hkq)
          exact ⟨h1, _, h2, h3⟩
        · rintro ⟨h1, v, h2, h3⟩
          have hvp := (hkept v p).mpr ⟨h1, h2, h3⟩
          rw [← k2] at hvp
          obtain ⟨e, he, heq⟩ := List.mem_map.mp hvp
          cases heq
          exact ⟨e, hp.mem_iff.mpr he, rfl⟩
      · rw [List.pairwise_map]
        refine List.Pairwise.imp_of_mem ?_ hs
        intro a b ha hb hab v w hv hw
        obtain ⟨_, h2, _⟩ := hin a.1 a.2 (hp.mem_iff.mp ha)
        obtain ⟨_, h4, _⟩ := hin b.1 b.2 (hp.mem_iff.mp hb)
        rw [h2] at hv
        rw [h4] at hw
        cases hv
        cases hw
        simpa using hab

end Torch
open Torch

variable {P : Type}

/-- **C91.** What is offered: exactly the builds without CUDA, if they are allowed, and the builds for one of the versions of
CUDA that fit the installed driver. -/
theorem torch_offers (cudas : List SV) (hr : ∀ c ∈ cudas, c.release ≠ []) (allowCpu : Bool) (version : P → Ver) (ps l : List P)
    (h : doMatch cudas allowCpu version ps = .ok l) (p : P) :
    p ∈ l ↔ p ∈ ps ∧ ∃ v, version p = .std v ∧ ((CpuBuild v ∧ allowCpu = true) ∨ ∃ c ∈ cudas, CudaBuild v c) := by
  rw [(doMatch_spec cudas hr allowCpu version ps l h).1 p]
  simp only [keep_iff]

/-- **C91.** It answers whenever the versions of the index are standard ones: no label makes it fail. -/
theorem torch_answers (cudas : List SV) (hr : ∀ c ∈ cudas, c.release ≠ []) (allowCpu : Bool) (version : P → Ver) (ps : List P)
    (h : ∀ p ∈ ps, ∃ v, version p = .std v) : ∃ l, doMatch cudas allowCpu version ps = .ok l := by
  obtain ⟨l, hl⟩ := kept_ok cudas allowCpu version ps h
  have hk := kept_spec cudas allowCpu version ps l hl
  obtain ⟨ks, hks⟩ := keyed_ok l (by
    rintro ⟨v, p⟩ he
    rcases (keep_iff _ _ _).mp ((hk v p).mp he).2.2 with ⟨h1, _⟩ | ⟨c, hc, h1⟩
    · exact ⟨_, key_cpu v h1⟩
    · exact ⟨_, key_cuda v c h1 (hr c hc)⟩)
  unfold doMatch
  rw [hl]
  simp only [hks]
  exact ⟨_, rfl⟩

/-- **C91.** The order: builds for CUDA come before those without; among either, newer versions come first. -/
theorem torch_order (cudas : List SV) (hr : ∀ c ∈ cudas, c.release ≠ []) (allowCpu : Bool) (version : P → Ver) (ps l : List P)
    (h : doMatch cudas allowCpu version ps = .ok l) :
    l.Pairwise (fun x y => ∀ v w, version x = .std v → version y = .std w →
      (CpuBuild v → CpuBuild w) ∧ ((CpuBuild v ↔ CpuBuild w) → v.lt w = false)) := by
  obtain ⟨h1, h2⟩ := doMatch_spec cudas hr allowCpu version ps l h
  have hword : ∀ x ∈ l, ∀ v, version x = .std v → Torch.isWord (v.loc.getD []) = true := by
    intro x hx v hv
    obtain ⟨_, v', hv', hk⟩ := (h1 x).mp hx
    rw [hv] at hv'
    cases hv'
    apply known_word
    rcases (keep_iff _ _ _).mp hk with ⟨k, _⟩ | ⟨c, hc, k⟩
    · exact .inl k
    · exact .inr ⟨c, k, hr c hc⟩
  refine List.Pairwise.imp_of_mem ?_ h2
  intro x y hx hy hxy v w hv hw
  have hlt := hxy v w hv hw
  unfold tidyLt at hlt
  rw [← isCpu_iff, ← isCpu_iff]
  constructor
  · intro hc
    by_cases e : isCpu v.loc = isCpu w.loc
    · rw [← e]; exact hc
    · rw [if_neg e, hc] at hlt; cases hlt
  · intro e
    have e' : isCpu v.loc = isCpu w.loc := by
      cases h3 : isCpu v.loc <;> cases h4 : isCpu w.loc <;> simp_all
    rw [if_pos e', tidy_lt v w (hword x hx v hv) (hword y hy w hw)] at hlt
    exact hlt

/-- **C91.** Of two builds of the same version for different CUDA, the newer CUDA comes first, when both have a major part of
two digits and a minor part of one. -/
theorem torch_cuda_order_partial (cudas : List SV) (hr : ∀ c ∈ cudas, c.release ≠ []) (allowCpu : Bool) (version : P → Ver)
    (ps l : List P) (h : doMatch cudas allowCpu version ps = .ok l) :
    l.Pairwise (fun p q => ∀ v w c d x y x' y', version p = .std v → version q = .std w → CudaBuild v c → CudaBuild w d →
      SamePublic v w → c.release = [x, y] → d.release = [x', y'] → 10 ≤ x → x < 100 → 10 ≤ x' → x' < 100 → y < 10 → y' < 10 →
      ¬ (x < x' ∨ (x = x' ∧ y < y'))) := by
  refine (torch_order cudas hr allowCpu version ps l h).imp ?_
  intro p q hpq v w c d x y x' y' hv hw hc hd hs hcr hdr hx1 hx2 hx3 hx4 hy hy' hlt
  have hcv : ¬ CpuBuild v := by rw [← isCpu_iff, isCpu_cuda v c hc]; simp
  have hdw : ¬ CpuBuild w := by rw [← isCpu_iff, isCpu_cuda w d hd]; simp
  have hno := (hpq v w hv hw).2 ⟨fun k => absurd k hcv, fun k => absurd k hdw⟩
  rw [SV.lt_samePublic v w hs] at hno
  have hwv := Torch.known_word v (.inr ⟨c, hc, by rw [hcr]; simp⟩)
  have hww := Torch.known_word w (.inr ⟨d, hd, by rw [hdr]; simp⟩)
  simp only [Torch.isWord, Bool.and_eq_true, Bool.not_eq_true', List.contains_eq_mem, decide_eq_false_iff_not] at hwv hww
  unfold SV.localSegments at hno
  rw [Tags.splitOn_one _ _ hwv.1, Tags.splitOn_one _ _ hww.1, SV.localLoop_cons] at hno
  have ev : v.loc.getD [] = t!"cu" ++ (showNat x ++ showNat y) := by
    unfold CudaBuild at hc; rw [hc, hcr]; simp
  have ew : w.loc.getD [] = t!"cu" ++ (showNat x' ++ showNat y') := by
    unfold CudaBuild at hd; rw [hd, hdr]; simp
  have key : strLt (v.loc.getD []) (w.loc.getD []) = true := by
    have : strLt (v.loc.getD []) (w.loc.getD []) = strLt (showNat x ++ showNat y) (showNat x' ++ showNat y') := by
      rw [ev, ew]; rfl
    rw [this, Torch.strLt_digits]
    · have num : ∀ a b : Nat, b < 10 → PS.toNat (showNat a ++ showNat b) = 10 * a + b := by
        intro a b hb
        have : ∃ ch, showNat b = [ch] := by
          have := Torch.showNat_short b hb
          match hsb : showNat b, this with
          | [ch], _ => exact ⟨ch, rfl⟩
        obtain ⟨ch, hch⟩ := this
        have hb' := toNat_showNat b
        rw [hch] at hb' ⊢
        rw [toNat_append, toNat_showNat]
        have : PS.toNat [ch] = ch.toNat - 48 := by simp [PS.toNat]
        omega
      rw [num x y hy, num x' y' hy', decide_eq_true_eq]
      omega
    · simp only [List.length_append, Torch.showNat_short y hy, Torch.showNat_short y' hy', Torch.showNat_two x hx1 hx2,
        Torch.showNat_two x' hx3 hx4]
    · intro ch hch
      rcases List.mem_append.mp hch with k | k <;> exact showNat_digits _ _ k
    · intro ch hch
      rcases List.mem_append.mp hch with k | k <;> exact showNat_digits _ _ k
  split at hno
  · rename_i e
    rw [e, strLt_irrefl] at key
    cases key
  · unfold SV.segLt at hno
    rw [hwv.2, hww.2] at hno
    simp only [Bool.and_self, Bool.or_self, Bool.false_eq_true, if_false] at hno
    rw [key] at hno
    cases hno

/-- CUDA 11.3, torch 1.10.0+cu113 and so on. -/
def torchOf (loc : Option Text) (minor : Nat) : SV := { release := [1, minor, 0], loc := loc }
def cudaOf (x y : Nat) : SV := { release := [x, y] }

example : doMatch [cudaOf 10 2, cudaOf 11 3] true (fun v : SV => Ver.std v)
    [torchOf none 11, torchOf (some t!"cu102") 10, torchOf (some t!"cu113") 10, torchOf (some t!"cu115") 10,
      torchOf (some t!"rocm4.2") 10, torchOf (some t!"cpu") 10] =
    .ok [torchOf (some t!"cu113") 10, torchOf (some t!"cu102") 10, torchOf none 11, torchOf (some t!"cpu") 10] := by rfl

/-- **C91 (violated).** The newest fitting CUDA is not always preferred: versions are compared with their labels, as texts,
before the number of the label, so `cu92` comes before `cu113`. -/
theorem torch_cuda_order_violated :
    doMatch [cudaOf 9 2, cudaOf 11 3] true (fun v : SV => Ver.std v)
      [torchOf (some t!"cu113") 7, torchOf (some t!"cu92") 7] =
    .ok [torchOf (some t!"cu92") 7, torchOf (some t!"cu113") 7] := by rfl

/-- **C91 (violated).** A single version of the index that is not a standard one makes the whole answer fail. -/
theorem torch_odd_version_violated (cudas : List SV) (allowCpu : Bool) (version : P → Ver) (ps : List P) (p : P) (hp : p ∈ ps)
    (hv : ∀ v, version p ≠ .std v) : doMatch cudas allowCpu version ps = .error .attribute := by
  have : kept cudas allowCpu version ps = .error .attribute := by
    induction ps with
    | nil => simp at hp
    | cons q ps ih =>
      simp only [kept]
      split
      · rename_i w hw
        rcases List.mem_cons.mp hp with e | e
        · subst e; exact absurd hw (hv w)
        · rw [ih e]
      · rfl
  unfold doMatch
  rw [this]

example : doMatch [] true (fun v : Ver => v) [.std (torchOf none 7), .named t!"nightly"] = .error .attribute :=
  torch_odd_version_violated _ _ _ _ (.named t!"nightly") (by simp) (by intro v h; cases h)

/-- **C91.** The versions of CUDA that fit a driver are those whose row of the table admits it, on the platform asked for. -/
theorem torch_compatible (table : List CudaSpec) (driver : Ver) (windows : Bool) (c : SV) :
    c ∈ compatibleCuda table driver windows ↔
      ∃ s ∈ table, s.cuda = c ∧ (if windows then s.windows.allows driver else s.linux.allows driver) = true := by
  unfold compatibleCuda
  simp only [List.mem_map, List.mem_filter]
  cases windows
  · simp only [Bool.false_and, Bool.not_false, Bool.true_and, Bool.false_or, Bool.false_eq_true, if_false]
    exact ⟨fun ⟨s, ⟨h1, h2⟩, h3⟩ => ⟨s, h1, h3, h2⟩, fun ⟨s, h1, h3, h2⟩ => ⟨s, ⟨h1, h2⟩, h3⟩⟩
  · simp only [Bool.true_and, Bool.not_true, Bool.false_and, Bool.or_false, if_true]
    exact ⟨fun ⟨s, ⟨h1, h2⟩, h3⟩ => ⟨s, h1, h3, h2⟩, fun ⟨s, h1, h3, h2⟩ => ⟨s, ⟨h1, h2⟩, h3⟩⟩

/-- The versions of the rows of the table that is shipped (resources/cuda-compatibilities.toml). -/
def shippedCuda : List (List Nat) :=
  [[7, 0], [7, 5], [8, 0], [8, 0], [9, 0], [9, 1], [9, 2], [9, 2], [10, 0, 130], [10, 1], [10, 2, 89], [11, 0, 1], [11, 0, 2],
    [11, 0, 3], [11, 1], [11, 1, 1], [11, 2, 0], [11, 2, 1], [11, 2, 2], [11, 3, 0], [11, 3, 1], [11, 4, 0], [11, 4], [11, 4],
    [11, 4], [11, 4], [11, 5], [11, 5], [11, 5], [11, 6], [11, 6]]

/-- **C91 (violated).** With the table that is shipped the builds for CUDA 10.0, 10.2, 11.0, 11.2 and 11.3, which torch labels
`cu100`, `cu102`, `cu110`, `cu112` and `cu113`, are never offered, whatever the driver: their rows carry a third part, which
becomes part of the label that is looked for. -/
theorem torch_table_violated (table : List CudaSpec) (ht : ∀ s ∈ table, s.cuda.release ∈ shippedCuda) (driver : Ver)
    (windows allowCpu : Bool) (version : P → Ver) (ps l : List P)
    (h : doMatch (compatibleCuda table driver windows) allowCpu version ps = .ok l) (p : P) (v : SV) (hp : version p = .std v)
    (hl : v.loc ∈ [some t!"cu100", some t!"cu102", some t!"cu110", some t!"cu112", some t!"cu113"]) : p ∉ l := by
  have hin : ∀ c ∈ compatibleCuda table driver windows, c.release ∈ shippedCuda := by
    intro c hc
    obtain ⟨s, hs, rfl, _⟩ := (torch_compatible table driver windows c).mp hc
    exact ht s hs
  intro hpl
  have hr : ∀ c ∈ compatibleCuda table driver windows, c.release ≠ [] := by
    intro c hc e
    have := hin c hc
    rw [e] at this
    exact absurd this (by decide)
  obtain ⟨_, v', hv', hk⟩ := (torch_offers _ hr allowCpu version ps l h p).mp hpl
  rw [hp] at hv'
  cases hv'
  rcases hk with ⟨hk, _⟩ | ⟨c, hc, hk⟩
  · rcases hk with hk | hk | hk <;> rw [hk] at hl <;> exact absurd hl (by decide)
  · have hall : ∀ r ∈ shippedCuda, some (t!"cu" ++ (r.map showNat).flatten) ∉
        [some t!"cu100", some t!"cu102", some t!"cu110", some t!"cu112", some t!"cu113"] := by decide +kernel
    unfold CudaBuild at hk
    rw [hk] at hl
    exact hall _ (hin c hc) hl

example : doMatch (compatibleCuda [⟨{ release := [11, 3, 1] }, .all, .all⟩, ⟨cudaOf 11 1, .all, .all⟩] (.std (cudaOf 465 19)) false)
    true (fun v : SV => Ver.std v) [torchOf (some t!"cu113") 10, torchOf (some t!"cu111") 10] =
    .ok [torchOf (some t!"cu111") 10] := by rfl

/-- **C91 (violated).** The repository can never be built: the table is looked for in a module that the distribution does not
have. -/
theorem torch_build_violated (modules : List Text) (hm : t!"pkm_torch_repository" ∉ modules) (table : List CudaSpec)
    (nvidia : Option Ver) (windows : Bool) : build modules table nvidia windows = .error .noModule := by
  unfold build
  simp [hm]

example : t!"pkm_torch_repository" ∉ [t!"download_torch_pkm_repo"] := by decide

/-- **C91 (violated).** Were it found, a machine without a driver could not use the builds without CUDA either. -/
theorem torch_no_driver_violated (modules : List Text) (hm : t!"pkm_torch_repository" ∈ modules) (table : List CudaSpec)
    (windows : Bool) :
    build modules table none windows = .error .noDriver ∧
    ∀ d, build modules table (some d) windows = .ok (compatibleCuda table d windows) := by
  unfold build
  simp [hm]

end Pkm
