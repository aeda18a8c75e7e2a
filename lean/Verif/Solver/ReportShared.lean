import Verif.Solver.ReportProps
set_option linter.unusedSimpArgs false
set_option linter.unusedVariables false
set_option linter.unusedSectionVars false
/-
C100: explanations of derivations in which something is used twice.
-/
namespace Pkm
namespace Spec
open Report

/-- The text of a line stands where a number should be. -/
def HasText {K F : Type} : Line K F → Prop
  | .andText _ _ _ => True
  | _ => False

end Spec
open Spec
namespace Report
variable {K F : Type} [DecidableEq K]

/-! ### Lines that were written twice -/

/-- A line was written again, or has a text for a number. -/
def Dirty (r : Rep K F) : Prop := (∃ (i : Nat) (e : (K ⊕ Nat) × Nat × Line K F), r[i]? = some e ∧ i < e.2.1) ∨ ∃ e ∈ r, HasText e.2.2

/-- Numbers are never less than places. -/
def Late (r : Rep K F) : Prop := ∀ (i : Nat) e, r[i]? = some e → i ≤ e.2.1

/-- Setting a key that is there. -/
theorem put_old (r : Rep K F) (key : K ⊕ Nat) (v : Nat × Line K F) (h : ∃ e ∈ r, e.1 = key) :
    ∃ i, i < r.length ∧ put r key v = r.set i (key, v) := by
  induction r with
  | nil => obtain ⟨e, he, _⟩ := h; cases he
  | cons e r ih =>
    by_cases hk : e.1 = key
    · exact ⟨0, by simp, by simp [put, hk]⟩
    · obtain ⟨e', he', hk'⟩ := h
      rcases List.mem_cons.1 he' with rfl | he'
      · exact absurd hk' hk
      · obtain ⟨i, hi, hp⟩ := ih ⟨e', he', hk'⟩
        exact ⟨i + 1, by simp; omega, by simp [put, hk, hp]⟩

theorem write_cases (r : Rep K F) (key : K ⊕ Nat) (l : Line K F) :
    ((∀ e ∈ r, e.1 ≠ key) ∧ write r key l = r ++ [(key, r.length, l)]) ∨
    ∃ i, i < r.length ∧ write r key l = r.set i (key, r.length, l) := by
  by_cases h : ∃ e ∈ r, e.1 = key
  · exact Or.inr (put_old r key _ h)
  · have h' : ∀ e ∈ r, e.1 ≠ key := fun e he hk => h ⟨e, he, hk⟩
    exact Or.inl ⟨h', put_fresh r key _ h'⟩

theorem Dirty.write {r : Rep K F} (h : Dirty r) (key : K ⊕ Nat) (l : Line K F) : Dirty (write r key l) := by
  rcases write_cases r key l with ⟨_, hw⟩ | ⟨i, hi, hw⟩
  · rw [hw]
    rcases h with ⟨i, e, he, hlt⟩ | ⟨e, he, ht⟩
    · exact Or.inl ⟨i, e, by rw [List.getElem?_append_left (lt_of_some he)]; exact he, hlt⟩
    · exact Or.inr ⟨e, by simp [he], ht⟩
  · rw [hw]
    exact Or.inl ⟨i, _, by simp [hi]; rfl, hi⟩

/-- What is clean was clean before. -/
theorem clean_before {r : Rep K F} {key : K ⊕ Nat} {l : Line K F} (h : ¬ Dirty (write r key l)) :
    ¬ Dirty r ∧ (∀ e ∈ r, e.1 ≠ key) ∧ write r key l = r ++ [(key, r.length, l)] ∧ ¬ HasText l := by
  refine ⟨fun hd => h (hd.write key l), ?_⟩
  rcases write_cases r key l with ⟨hf, hw⟩ | ⟨i, hi, hw⟩
  · refine ⟨hf, hw, fun ht => h (Or.inr ⟨(key, r.length, l), by rw [hw]; simp, ht⟩)⟩
  · exact absurd (Or.inl ⟨i, (key, r.length, l), by rw [hw]; simp [hi], hi⟩) h

theorem Late.write {r : Rep K F} (h : Late r) (key : K ⊕ Nat) (l : Line K F) : Late (write r key l) := by
  rcases write_cases r key l with ⟨_, hw⟩ | ⟨i, hi, hw⟩
  · rw [hw]
    intro j e he
    rcases Nat.lt_trichotomy j r.length with hj | hj | hj
    · rw [List.getElem?_append_left hj] at he; exact h j e he
    · subst hj; simp at he; subst he; simp
    · have := lt_of_some he; simp at this; omega
  · rw [hw]
    intro j e he
    by_cases hj : i = j
    · subst hj; simp [hi] at he; subst he; simp; omega
    · rw [List.getElem?_set_ne hj] at he; exact h j e he

variable (missing : F → Bool)

/-- What holds before `generate` and is kept by each line holds after it. -/
theorem generate_keeps (P : Rep K F → Prop) (hP : ∀ r key l, P r → P (write r key l)) (c : Cause K F) (r : Rep K F) :
    P r → P (generate missing c r) := by
  fun_induction generate missing c r <;> intro h <;> solve_by_elim (maxDepth := 12) [hP]

theorem clean_generate {c : Cause K F} {r : Rep K F} (h : ¬ Dirty (generate missing c r)) : ¬ Dirty r :=
  fun hd => h (generate_keeps missing Dirty (fun r key l hr => hr.write key l) c r hd)

/-! ### Reports without such lines -/

section
variable (tk : K → Prop) (tf : F → Prop)

structure Sane (r : Rep K F) : Prop where
  numbered : Numbered r
  readable : ∀ (i : Nat) (v : Nat × Line K F), (out r)[i]? = some v → LineReadable tk tf (out r) i v.2
  keys : ∀ (i : Nat) (e : (K ⊕ Nat) × Nat × Line K F) (k : K), r[i]? = some e → e.1 = .inl k → Line.concl e.2.2 = some k

structure More (c : Cause K F) (r r' : Rep K F) : Prop where
  sane : Sane tk tf r'
  new : ∃ ls, r' = r ++ ls ∧ ∀ e ∈ ls, ∀ f ∈ Line.facts e.2.2, f ∈ leaves c
  last : ∃ (pre : Rep K F) (n : Nat) (l : Line K F), r' = pre ++ [(.inl c.key, n, l)] ∧ Line.concl l = some c.key

variable {tk tf}

theorem More.above {c : Cause K F} {r r' : Rep K F} (h : More tk tf c r r') : LineAbove (out r') r'.length 1 c.key := by
  obtain ⟨i, n, l, rfl, hc⟩ := h.last
  exact ⟨i.length, (n, l), by simp, by simp [out], hc⟩

theorem More.mem {c : Cause K F} {r r' : Rep K F} (h : More tk tf c r r') : ∃ e ∈ r', e.1 = .inl c.key := by
  obtain ⟨pre, n, l, rfl, _⟩ := h.last
  exact ⟨(.inl c.key, n, l), by simp, rfl⟩

/-- A number that is looked up is that of the right line. -/
theorem Sane.get {r : Rep K F} (h : Sane tk tf r) {k : K} {l : Nat × Line K F} (hg : Report.get r k = some l) : Refers (out r) r.length l.1 k := by
  simp only [Report.get, Option.map_eq_some_iff] at hg
  obtain ⟨e, hf, rfl⟩ := hg
  have hp : e.1 = .inl k := by simpa using List.find?_some hf
  obtain ⟨i, hi, hie⟩ := List.getElem_of_mem (List.mem_of_find?_eq_some hf)
  have hsome : r[i]? = some e := by rw [List.getElem?_eq_getElem hi, hie]
  have hc := h.keys i e k hsome hp
  have hn := (h.numbered i e hsome).1
  refine ⟨⟨i, e.2.2, hi, ?_, hc⟩, fun j v hj hv hvn => ?_⟩
  · simp only [out, List.getElem?_map, hsome, Option.map_some]
  · simp only [out, List.getElem?_map] at hv
    obtain ⟨e', he', rfl⟩ := Option.map_eq_some_iff.1 hv
    have : e'.2.1 = j := (h.numbered j e' he').1
    have hji : j = i := by rw [← this, hvn, hn]
    subst hji
    rw [hsome] at he'
    cases he'
    exact hc

theorem Sane.number {r : Rep K F} (h : Sane tk tf r) {k : K} (hk : ∃ e ∈ r, e.1 = .inl k) : Refers (out r) r.length (Report.number r k) k := by
  obtain ⟨e0, he0, hk0⟩ := hk
  cases hg : Report.get r k with
  | none =>
    simp only [Report.get, Option.map_eq_none_iff, List.find?_eq_none] at hg
    exact absurd (by simpa using hk0) (hg e0 he0)
  | some l =>
    have := h.get hg
    simpa [Report.number, hg] using this

/-- One more line. -/
theorem Sane.line {r : Rep K F} (h : Sane tk tf r) {key : K ⊕ Nat} {l : Line K F} (hw : write r key l = r ++ [(key, r.length, l)])
    (hk : ∀ k, key = .inl k → Line.concl l = some k) (hinr : ∀ n, key = .inr n → n = r.length)
    (hr : LineReadable tk tf (out r) r.length l) : Sane tk tf (write r key l) := by
  rw [hw]
  have hout : out (r ++ [(key, r.length, l)]) = out r ++ [(r.length, l)] := by simp [out]
  refine ⟨h.numbered.snoc key l hinr, fun i v hv => ?_, fun i e k he hek => ?_⟩
  · rw [hout] at hv ⊢
    rcases Nat.lt_or_ge i r.length with hlt | hge
    · rw [List.getElem?_append_left (by rw [out_length]; exact hlt)] at hv
      exact LineReadable.mono (h.readable i v hv) (by rw [out_length]; omega) _
    · have h1 := lt_of_some hv
      simp [out_length] at h1
      have hi' : i = r.length := by omega
      subst hi'
      rw [List.getElem?_append_right (by rw [out_length]; omega)] at hv
      simp [out_length] at hv
      subst hv
      exact LineReadable.mono hr (by rw [out_length]; omega) _
  · rcases Nat.lt_or_ge i r.length with hlt | hge
    · rw [List.getElem?_append_left hlt] at he; exact h.keys i e k he hek
    · have h1 := lt_of_some he
      simp at h1
      have hi' : i = r.length := by omega
      subst hi'
      simp at he
      subst he
      exact hk k hek

/-- The end of `generate`. -/
theorem More.finish {c : Cause K F} {r r1 : Rep K F} (h : Sane tk tf r1) (hnew : ∃ ls, r1 = r ++ ls ∧ ∀ e ∈ ls, ∀ f ∈ Line.facts e.2.2, f ∈ leaves c)
    {l : Line K F} (hd : ¬ Dirty (write r1 (.inl c.key) l)) (hc : Line.concl l = some c.key) (hf : ∀ f ∈ Line.facts l, f ∈ leaves c)
    (hr : LineReadable tk tf (out r1) r1.length l) : More tk tf c r (write r1 (.inl c.key) l) := by
  obtain ⟨_, _, hw, _⟩ := clean_before hd
  obtain ⟨ls, e1, hls⟩ := hnew
  refine ⟨h.line hw (fun k hk => by injection hk with hk; subst hk; exact hc) (fun n hn => by cases hn) hr, ⟨ls ++ [(.inl c.key, r1.length, l)], ?_, ?_⟩, ⟨r1, _, l, hw, hc⟩⟩
  · rw [hw, e1]; simp
  · intro e he
    rcases List.mem_append.1 he with he | he
    · exact hls e he
    · simp at he; subst he; exact hf

theorem More.grow {c c' : Cause K F} {r r1 : Rep K F} (h : More tk tf c r r1) (hl : ∀ f ∈ leaves c, f ∈ leaves c') :
    ∃ ls, r1 = r ++ ls ∧ ∀ e ∈ ls, ∀ f ∈ Line.facts e.2.2, f ∈ leaves c' := by
  obtain ⟨ls, e1, hls⟩ := h.new
  exact ⟨ls, e1, fun e he f hf => hl f (hls e he f hf)⟩

theorem grow_trans {c : Cause K F} {r r1 r2 : Rep K F} (h1 : ∃ ls, r1 = r ++ ls ∧ ∀ e ∈ ls, ∀ f ∈ Line.facts e.2.2, f ∈ leaves c)
    (h2 : ∃ ls, r2 = r1 ++ ls ∧ ∀ e ∈ ls, ∀ f ∈ Line.facts e.2.2, f ∈ leaves c) : ∃ ls, r2 = r ++ ls ∧ ∀ e ∈ ls, ∀ f ∈ Line.facts e.2.2, f ∈ leaves c := by
  obtain ⟨l1, e1, k1⟩ := h1
  obtain ⟨l2, e2, k2⟩ := h2
  refine ⟨l1 ++ l2, by rw [e2, e1, List.append_assoc], fun e he => ?_⟩
  rcases List.mem_append.1 he with he | he
  · exact k1 e he
  · exact k2 e he

theorem grow_refl (c : Cause K F) (r : Rep K F) : ∃ ls, r = r ++ ls ∧ ∀ e ∈ ls, ∀ f ∈ Line.facts e.2.2, f ∈ leaves c := ⟨[], by simp, by simp⟩

/-- Two lines up, after a simple incompatibility. -/
theorem More.two {a b : Cause K F} {r : Rep K F} (hs : isSimple b = true) (h1 : More tk tf a r (generate missing a r))
    (hd : ¬ Dirty (generate missing b (generate missing a r))) :
    LineAbove (out (generate missing b (generate missing a r))) (generate missing b (generate missing a r)).length 2 a.key := by
  match b, hs with
  | .both k (.fact k1 f) (.fact k2 g), _ =>
    simp only [generate] at hd ⊢
    obtain ⟨_, _, hw, _⟩ := clean_before hd
    rw [hw]
    obtain ⟨j, v, hj, hv, hvc⟩ := LineAbove.mono h1.above (out [(.inl k, (generate missing a r).length, (if missing g = true then Line.unresolved f g k else Line.because f g k))])
    refine ⟨j, v, by simp; omega, by simpa [out] using hv, hvc⟩

theorem get_append {r : Rep K F} {k : K} {l : Nat × Line K F} (h : Report.get r k = some l) (ls : Rep K F) : Report.get (r ++ ls) k = some l := by
  simp only [Report.get, Option.map_eq_some_iff] at h ⊢
  obtain ⟨e, hf, rfl⟩ := h
  exact ⟨e, by simp [List.find?_append, hf], rfl⟩

/-- An empty line. -/
theorem Sane.blank {r : Rep K F} (h : Sane tk tf r) (c : Cause K F) (hd : ¬ Dirty (write r (.inr r.length) .blank)) :
    Sane tk tf (write r (.inr r.length) .blank) ∧
    (∃ ls, write r (.inr r.length) .blank = r ++ ls ∧ ∀ e ∈ ls, ∀ f ∈ Line.facts e.2.2, f ∈ leaves c) := by
  obtain ⟨_, _, hw, _⟩ := clean_before hd
  refine ⟨h.line hw (fun k hk => by cases hk) (fun n hn => by injection hn with hn; exact hn.symm) trivial, ⟨_, hw, ?_⟩⟩
  intro e he f hf
  simp at he; subst he; simp [Line.facts] at hf

theorem more_all (c : Cause K F) (r : Rep K F) : Sane tk tf r → DerivesRight tk tf c → ¬ Dirty (generate missing c r) → (∀ k f, c ≠ .fact k f) →
    More tk tf c r (generate missing c r) := by
  fun_induction generate missing c r <;> intro hs hr hd hc
  · exact absurd rfl (hc _ _)
  · rename_i k k1 f k2 g r
    refine More.finish (c := .both k (.fact k1 f) (.fact k2 g)) hs (grow_refl _ _) hd ?_ ?_ ?_
    · cases missing g <;> rfl
    · intro x; cases missing g <;> simp [leaves, Line.facts]
    · cases missing g <;> exact hr.1
  case case3 =>
    rename_i k k1 x1 y1 k2 x2 y2 r l1 l2 hg2 hg1
    exact More.finish (c := .both k (.both k1 x1 y1) (.both k2 x2 y2)) hs (grow_refl _ _) hd rfl (by simp [Line.facts]) ⟨hs.get hg1, hs.get hg2, hr.1⟩
  case case4 =>
    rename_i k k1 x1 y1 k2 x2 y2 r l1 hg2 hg1 ih
    have h1 := ih hs hr.2.2 (clean_before hd).1 (by simp)
    refine More.finish (c := .both k (.both k1 x1 y1) (.both k2 x2 y2)) h1.sane (h1.grow (fun f hf => List.mem_append_right _ hf)) hd rfl
      (by simp [Line.facts]) ⟨?_, k2, h1.above, fun a b => hr.1 b a⟩
    obtain ⟨ls, e1, _⟩ := h1.new
    exact h1.sane.get (by rw [e1]; exact get_append hg1 ls)
  case case5 => exact absurd trivial (clean_before hd).2.2.2
  case case6 =>
    rename_i k k1 x1 y1 k2 x2 y2 r hg2 hg1 hsimp ih2 ih1
    have hd1 := (clean_before hd).1
    have h2 := ih2 hs hr.2.2 (clean_generate missing hd1) (by simp)
    have h1 := ih1 h2.sane hr.2.1 hd1 (by simp)
    exact More.finish (c := .both k (.both k1 x1 y1) (.both k2 x2 y2)) h1.sane
      (grow_trans (h2.grow (fun f hf => List.mem_append_right _ hf)) (h1.grow (fun f hf => List.mem_append_left _ hf))) hd rfl
      (by simp [Line.facts]) ⟨k1, k2, h1.above, More.two missing hsimp h2 hd1, hr.1⟩
  case case7 =>
    rename_i k k1 x1 y1 k2 x2 y2 r hg2 hg1 _ hsimp ih2 ih1
    have hd1 := (clean_before hd).1
    have h2 := ih2 hs hr.2.1 (clean_generate missing hd1) (by simp)
    have h1 := ih1 h2.sane hr.2.2 hd1 (by simp)
    exact More.finish (c := .both k (.both k1 x1 y1) (.both k2 x2 y2)) h1.sane
      (grow_trans (h2.grow (fun f hf => List.mem_append_left _ hf)) (h1.grow (fun f hf => List.mem_append_right _ hf))) hd rfl
      (by simp [Line.facts]) ⟨k2, k1, h1.above, More.two missing hsimp h2 hd1, fun a b => hr.1 b a⟩
  case case8 =>
    rename_i k k1 x1 y1 k2 x2 y2 r hg2 hg1 _ _ r1 r2 r3 ih2 ih1
    have hd3 : ¬ Dirty r3 := (clean_before hd).1
    have hd2 : ¬ Dirty r2 := (clean_before hd3).1
    have hdb : ¬ Dirty (write r1 (.inr r1.length) .blank) := clean_generate missing hd2
    have h1 := ih2 hs hr.2.1 (clean_before hdb).1 (by simp)
    have hb1 := Sane.blank h1.sane (.both k (.both k1 x1 y1) (.both k2 x2 y2)) hdb
    have h2 := ih1 hb1.1 hr.2.2 hd2 (by simp)
    have hb2 := Sane.blank h2.sane (.both k (.both k1 x1 y1) (.both k2 x2 y2)) hd3
    have hm : ∀ {a b : Rep K F} {c : Cause K F} {kk : K}, (∃ ls, b = a ++ ls ∧ ∀ e ∈ ls, ∀ f ∈ Line.facts e.2.2, f ∈ leaves c) →
        (∃ e ∈ a, e.1 = .inl kk) → ∃ e ∈ b, e.1 = .inl kk := by
      rintro a b c kk ⟨ls, rfl, _⟩ ⟨e, he, hk⟩
      exact ⟨e, by simp [he], hk⟩
    refine More.finish (c := .both k (.both k1 x1 y1) (.both k2 x2 y2)) hb2.1
      (grow_trans (grow_trans (grow_trans (h1.grow (fun f hf => List.mem_append_left _ hf)) hb1.2)
        (h2.grow (fun f hf => List.mem_append_right _ hf))) hb2.2) hd rfl (by simp [Line.facts]) ⟨?_, ?_, hr.1⟩
    · exact hb2.1.number (hm hb2.2 (hm h2.new (hm hb1.2 h1.mem)))
    · exact hb2.1.number (hm hb2.2 h2.mem)
  case case9 =>
    rename_i k kd x y kf f r l hg
    refine More.finish (c := (.both k (.both kd x y) (.fact kf f))) hs (grow_refl _ _) hd rfl (by simp [Line.facts, leaves]) ⟨hs.get hg, fun h1 h2 => ?_⟩
    exact hr.1 h2 h1
  case case10 =>
    rename_i k kd kf f r hg kx x1 x2 ky g ih
    have h1 := ih hs hr.2.1.2.1 (clean_before hd).1 (by simp)
    refine More.finish (c := (.both k (.both kd (.both kx x1 x2) (.fact ky g)) (.fact kf f))) h1.sane (h1.grow (by intro z hz; simp [leaves] at hz ⊢; rcases hz with hz | hz <;> simp [hz])) hd rfl
      (by simp [Line.facts, leaves]) ⟨kx, h1.above, fun h2 h3 h4 => ?_⟩
    exact hr.1 (hr.2.1.1 h2 h3) h4
  case case11 =>
    rename_i k kd kf f r hg kx g ky y1 y2 ih
    have h1 := ih hs hr.2.1.2.2 (clean_before hd).1 (by simp)
    refine More.finish (c := (.both k (.both kd (.fact kx g) (.both ky y1 y2)) (.fact kf f))) h1.sane (h1.grow (by intro z hz; simp [leaves] at hz ⊢; rcases hz with hz | hz <;> simp [hz])) hd rfl
      (by simp [Line.facts, leaves]) ⟨ky, h1.above, fun h2 h3 h4 => ?_⟩
    exact hr.1 (hr.2.1.1 h3 h2) h4
  case case12 =>
    rename_i k kd kf f r hg x y _ _ ih
    have h1 := ih hs hr.2.1 (clean_before hd).1 (by simp)
    refine More.finish (c := (.both k (.both kd x y) (.fact kf f))) h1.sane (h1.grow (by intro z hz; simp [leaves] at hz ⊢; rcases hz with hz | hz <;> simp [hz])) hd rfl
      (by simp [Line.facts, leaves]) ⟨kd, h1.above, fun h2 h3 => ?_⟩
    exact hr.1 h2 h3
  case case13 =>
    rename_i k kf f kd x y r l hg
    refine More.finish (c := (.both k (.fact kf f) (.both kd x y))) hs (grow_refl _ _) hd rfl (by simp [Line.facts, leaves]) ⟨hs.get hg, fun h1 h2 => ?_⟩
    exact hr.1 h1 h2
  case case14 =>
    rename_i k kf f kd r hg kx x1 x2 ky g ih
    have h1 := ih hs hr.2.2.2.1 (clean_before hd).1 (by simp)
    refine More.finish (c := (.both k (.fact kf f) (.both kd (.both kx x1 x2) (.fact ky g)))) h1.sane (h1.grow (by intro z hz; simp [leaves] at hz ⊢; rcases hz with hz | hz <;> simp [hz])) hd rfl
      (by simp [Line.facts, leaves]) ⟨kx, h1.above, fun h2 h3 h4 => ?_⟩
    exact hr.1 h4 (hr.2.2.1 h2 h3)
  case case15 =>
    rename_i k kf f kd r hg kx g ky y1 y2 ih
    have h1 := ih hs hr.2.2.2.2 (clean_before hd).1 (by simp)
    refine More.finish (c := (.both k (.fact kf f) (.both kd (.fact kx g) (.both ky y1 y2)))) h1.sane (h1.grow (by intro z hz; simp [leaves] at hz ⊢; rcases hz with hz | hz <;> simp [hz])) hd rfl
      (by simp [Line.facts, leaves]) ⟨ky, h1.above, fun h2 h3 h4 => ?_⟩
    exact hr.1 h4 (hr.2.2.1 h3 h2)
  case case16 =>
    rename_i k kf f kd r hg x y _ _ ih
    have h1 := ih hs hr.2.2 (clean_before hd).1 (by simp)
    refine More.finish (c := (.both k (.fact kf f) (.both kd x y))) h1.sane (h1.grow (by intro z hz; simp [leaves] at hz ⊢; rcases hz with hz | hz <;> simp [hz])) hd rfl
      (by simp [Line.facts, leaves]) ⟨kd, h1.above, fun h2 h3 => ?_⟩
    exact hr.1 h3 h2
end

/-! ### Numbers of printed lines -/

theorem insert_perm (v : Nat × Line K F) (vs : List (Nat × Line K F)) : (Report.insert v vs).Perm (v :: vs) := by
  induction vs with
  | nil => exact List.Perm.refl _
  | cons w vs ih =>
    simp only [Report.insert]
    split
    · exact List.Perm.refl _
    · exact (ih.cons w).trans (List.Perm.swap v w vs)

theorem sorted_perm (vs : List (Nat × Line K F)) : (sorted vs).Perm vs := by
  have : ∀ acc : List (Nat × Line K F), (vs.foldl (fun acc v => Report.insert v acc) acc).Perm (vs ++ acc) := by
    induction vs with
    | nil => intro acc; exact List.Perm.refl _
    | cons v vs ih =>
      intro acc
      refine (ih _).trans ?_
      refine ((insert_perm v acc).append_left vs).trans ?_
      exact List.perm_middle
  simpa [sorted] using this []

theorem low_sum (ns : List Nat) : ∀ o : Nat, (∀ (i n : Nat), ns[i]? = some n → i + o ≤ n) → (List.range' o ns.length).sum ≤ ns.sum := by
  induction ns with
  | nil => intro o _; simp
  | cons m ns ih =>
    intro o h
    have h0 := h 0 m rfl
    have := ih (o + 1) (fun i n hn => by have := h (i + 1) n (by simpa using hn); omega)
    simp only [List.length_cons, List.range'_succ, List.sum_cons]
    omega

theorem tight_sum (ns : List Nat) : ∀ o : Nat, (∀ (i n : Nat), ns[i]? = some n → i + o ≤ n) → ns.sum ≤ (List.range' o ns.length).sum →
    ∀ (i n : Nat), ns[i]? = some n → n = i + o := by
  induction ns with
  | nil => intro o _ _ i n hn; simp at hn
  | cons m ns ih =>
    intro o h hs i n hn
    have h0 := h 0 m rfl
    have hl : ∀ (i n : Nat), ns[i]? = some n → i + (o + 1) ≤ n := fun i n hn => by have := h (i + 1) n (by simpa using hn); omega
    have h1 := low_sum ns (o + 1) hl
    simp only [List.length_cons, List.range'_succ, List.sum_cons] at hs
    match i with
    | 0 => simp at hn; omega
    | i + 1 => have := ih (o + 1) hl (by omega) i n (by simpa using hn); omega

theorem sum_numbered (ns : List Nat) (o : Nat) (h : ∀ (i n : Nat), ns[i]? = some n → n = i + o) : ns = List.range' o ns.length := by
  apply List.ext_getElem? 
  intro i
  rcases hi : ns[i]? with _ | n
  · have : ns.length ≤ i := by simpa using hi
    simp [this]
  · have hlt := lt_of_some hi
    rw [h i n hi]
    simp [hlt, Nat.add_comm]

/-- Lines printed as 0, 1, 2, ... without texts for numbers were each written once. -/
theorem clean_of_printed (c : Cause K F) (hn : ∀ (i : Nat) (v : Nat × Line K F), (report missing c)[i]? = some v → v.1 = i)
    (ht : ∀ v ∈ report missing c, ¬ HasText v.2) : ¬ Dirty (generate missing c []) := by
  have hp : (report missing c).Perm (out (generate missing c [])) := sorted_perm _
  rintro (⟨i, e, he, hlt⟩ | ⟨e, he, hte⟩)
  · have hlate : Late (generate missing c []) :=
      generate_keeps missing Late (fun r key l hr => hr.write key l) c [] (fun i e he => by simp at he)
    have h1 : (report missing c).map (·.1) = List.range' 0 (report missing c).length := by
      have := sum_numbered ((report missing c).map (·.1)) 0 (fun i n hin => by
        simp only [List.getElem?_map] at hin
        obtain ⟨v, hv, rfl⟩ := Option.map_eq_some_iff.1 hin
        exact hn i v hv)
      simpa using this
    have h2 : ((out (generate missing c [])).map (·.1)).sum = (List.range' 0 (generate missing c []).length).sum := by
      rw [← (hp.map (·.1)).sum_nat, h1, hp.length_eq, out_length]
    have h3 := tight_sum ((out (generate missing c [])).map (·.1)) 0 (fun i n hin => by
        simp only [out, List.map_map, List.getElem?_map] at hin
        obtain ⟨e, he, rfl⟩ := Option.map_eq_some_iff.1 hin
        exact hlate i e he) (by rw [h2]; simp) i e.2.1 (by simp [out, he])
    omega
  · exact ht e.2 (hp.mem_iff.2 (List.mem_map.2 ⟨e, he, rfl⟩)) hte

/-- Lines that can be followed are true if the facts they name are. -/
theorem follow {tk : K → Prop} {tf : F → Prop} {L : List (Nat × Line K F)} (h : ∀ (i : Nat) (v : Nat × Line K F), L[i]? = some v → LineReadable tk tf L i v.2)
    (hf : ∀ v ∈ L, ∀ f ∈ Line.facts v.2, tf f) (i : Nat) : ∀ (v : Nat × Line K F) (k : K), L[i]? = some v → Line.concl v.2 = some k → tk k := by
  induction i using Nat.strongRecOn with
  | ind i ih =>
  rintro ⟨n, l⟩ k hv hc
  have hr := h i (n, l) hv
  have hff := hf (n, l) (List.mem_of_getElem? hv)
  have ref : ∀ {m : Nat} {k' : K}, Refers L i m k' → tk k' := fun ⟨⟨j, l', hj, hl, hcl⟩, _⟩ => ih j hj _ _ hl hcl
  have abv : ∀ {d : Nat} {k' : K}, LineAbove L i (d + 1) k' → tk k' := fun ⟨j, v, hj, hl, hcl⟩ => ih j (by omega) _ _ hl hcl
  cases l <;> simp only [Line.concl, Option.some.injEq, reduceCtorEq] at hc <;> subst hc <;> simp only [LineReadable] at hr <;>
    simp only [Line.facts, List.mem_cons, List.not_mem_nil, or_false, forall_eq_or_imp, forall_eq] at hff
  · exact hr hff.1 hff.2
  · exact hr hff.1 hff.2
  · exact hr.2 hff (ref hr.1)
  · obtain ⟨p, hp, hr⟩ := hr; exact hr (abv hp) hff.1 hff.2
  · obtain ⟨p, hp, hr⟩ := hr; exact hr (abv hp) hff
  · exact hr.2.2 (ref hr.1) (ref hr.2.1)
  · obtain ⟨hr1, p, hp, hr⟩ := hr; exact hr (abv hp) (ref hr1)
  · obtain ⟨p, q, hp, hq, hr⟩ := hr; exact hr (abv hp) (abv hq)
  · exact hr.2.2 (ref hr.1) (ref hr.2.1)

end Report
open Report

/-- C100, for derivations in which things may be used more than once. If the lines that are printed have the numbers 0, 1, 2, ... and none has a text where a number
should be, then every line can be followed from facts and from what is above it, the last line is the conclusion, and the facts that are named are
among those the derivation rests on. -/
theorem report_explains_if_numbered {K F : Type} [DecidableEq K] (missing : F → Bool) (k : K) (a b : Cause K F) (tk : K → Prop) (tf : F → Prop)
    (hr : DerivesRight tk tf (.both k a b))
    (hn : ∀ (i : Nat) (v : Nat × Line K F), (report missing (.both k a b))[i]? = some v → v.1 = i)
    (ht : ∀ v ∈ report missing (.both k a b), ¬ HasText v.2) :
    let L := report missing (.both k a b)
    (∀ (i : Nat) (v : Nat × Line K F), L[i]? = some v → LineReadable tk tf L i v.2) ∧
    (∃ v, L.getLast? = some v ∧ Line.concl v.2 = some k) ∧
    (∀ v ∈ L, ∀ f ∈ Line.facts v.2, f ∈ leaves (.both k a b)) := by
  have hd := clean_of_printed missing _ hn ht
  have h := more_all (tk := tk) (tf := tf) missing (.both k a b) [] ⟨fun i e he => by simp at he, fun i v hv => by simp [out] at hv, fun i e k he => by simp at he⟩
    hr hd (by simp)
  have hL := report_eq missing (.both k a b) h.sane.numbered
  simp only [hL]
  refine ⟨h.sane.readable, ?_, ?_⟩
  · obtain ⟨pre, n, l, he, hc⟩ := h.last
    exact ⟨(n, l), by rw [he]; simp [out], hc⟩
  · obtain ⟨ls, he, hf⟩ := h.new
    intro v hv f hfv
    rw [he] at hv
    obtain ⟨e, hem, rfl⟩ := List.mem_map.1 hv
    exact hf e (by simpa using hem) f hfv

/-- C100: one who accepts the facts that are named has to accept the conclusion, whatever they think of other facts the derivation rests on. -/
theorem report_convinces {K F : Type} [DecidableEq K] (missing : F → Bool) (k : K) (a b : Cause K F) (tk : K → Prop) (tf : F → Prop)
    (hr : DerivesRight tk tf (.both k a b))
    (hn : ∀ (i : Nat) (v : Nat × Line K F), (report missing (.both k a b))[i]? = some v → v.1 = i)
    (ht : ∀ v ∈ report missing (.both k a b), ¬ HasText v.2)
    (hf : ∀ v ∈ report missing (.both k a b), ∀ f ∈ Line.facts v.2, tf f) : tk k := by
  obtain ⟨h1, ⟨v, hv, hc⟩, _⟩ := report_explains_if_numbered missing k a b tk tf hr hn ht
  rw [List.getLast?_eq_getElem?] at hv
  exact follow h1 hf _ v k hv hc

namespace Report

/-- 1 from two facts; used for 3, and for 4, which has the line of 1 first. -/
def usedTwice : Cause Nat Nat :=
  .both 9 (.both 3 (.both 1 (fct 1) (fct 2)) (fct 3)) (.both 4 (.both 1 (fct 1) (fct 2)) (.both 2 (fct 4) (fct 5)))

example : ¬ (derived usedTwice).Nodup := by decide
example : report (fun _ => false) usedTwice = [(0, .because 1 2 1), (1, .andFact 3 3), (2, .blank), (3, .because 4 5 2), (4, .andLine 1 0 4), (5, .blank),
    (6, .so 3 1 4 4 9)] := by decide
example : DerivesRight (fun _ => True) (fun _ : Nat => True) usedTwice := by simp [DerivesRight, usedTwice, fct]
example : (∀ (i : Nat) v, (report (fun _ => false) usedTwice)[i]? = some v → v.1 = i) ∧ ∀ v ∈ report (fun _ => false) usedTwice, ¬ HasText v.2 := by
  rw [show report (fun _ => false) usedTwice = [(0, .because 1 2 1), (1, .andFact 3 3), (2, .blank), (3, .because 4 5 2), (4, .andLine 1 0 4), (5, .blank),
    (6, .so 3 1 4 4 9)] from by decide]
  refine ⟨fun i v hv => ?_, by simp [HasText]⟩
  match i with
  | 0 | 1 | 2 | 3 | 4 | 5 | 6 => simp at hv; subst hv; rfl
  | i + 7 => simp at hv

/-- 1 and 2 from facts, each used twice. -/
def bothTwice : Cause Nat Nat :=
  .both 9 (.both 3 (.both 1 (fct 1) (fct 2)) (.both 2 (fct 4) (fct 5))) (.both 4 (.both 1 (fct 1) (fct 2)) (.both 2 (fct 4) (fct 5)))

example : report (fun _ => false) bothTwice = [(0, .because 4 5 2), (1, .because 1 2 1), (2, .thus 3), (3, .blank), (4, .becauseTwo 1 1 2 0 4), (5, .blank),
    (6, .so 3 2 4 4 9)] := by decide

end Report
end Pkm
