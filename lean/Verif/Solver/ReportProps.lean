import Verif.Solver.Report
set_option linter.unusedSimpArgs false
set_option linter.unusedVariables false
set_option linter.unusedSectionVars false
/-
C100: the explanation of a failed resolution explains it.
-/
namespace Pkm
namespace Spec
open Report
variable {K F : Type} [DecidableEq K]

/-- Whether an incompatibility holds, given which facts and which sets of terms hold. -/
def CauseHolds (tk : K → Prop) (tf : F → Prop) : Cause K F → Prop
  | .fact _ f => tf f
  | .both k _ _ => tk k

/-- Every incompatibility follows from the two it was derived from. -/
def DerivesRight (tk : K → Prop) (tf : F → Prop) : Cause K F → Prop
  | .fact _ _ => True
  | .both k a b => (CauseHolds tk tf a → CauseHolds tk tf b → tk k) ∧ DerivesRight tk tf a ∧ DerivesRight tk tf b

/-- The conclusion of a line. -/
def Line.concl : Line K F → Option K
  | .because _ _ k | .unresolved _ _ k | .becauseFact _ _ _ k | .andFacts _ _ k | .andFact _ k | .becauseTwo _ _ _ _ k
  | .andLine _ _ k | .andText _ _ k | .thus k | .so _ _ _ _ k => some k
  | .fact _ | .blank => none

/-- Exactly one line above the `i`-th has the number `n`, and it concludes `k`. -/
def Refers (L : List (Nat × Line K F)) (i n : Nat) (k : K) : Prop :=
  (∃ (j : Nat) (l : Line K F), j < i ∧ L[j]? = some (n, l) ∧ Line.concl l = some k) ∧
  ∀ (j : Nat) (v : Nat × Line K F), j < i → L[j]? = some v → v.1 = n → Line.concl v.2 = some k

/-- The line `d` lines above the `i`-th concludes `k`. -/
def LineAbove (L : List (Nat × Line K F)) (i d : Nat) (k : K) : Prop :=
  ∃ (j : Nat) (v : Nat × Line K F), j + d = i ∧ L[j]? = some v ∧ Line.concl v.2 = some k

/-- A reader can follow the line: its conclusion follows from the facts it names, from the lines it refers to by number, which say what the
line takes them to say, and, for "And" and "Thus", from the one or two lines above. -/
def LineReadable (tk : K → Prop) (tf : F → Prop) (L : List (Nat × Line K F)) (i : Nat) : Line K F → Prop
  | .fact _ => True
  | .blank => True
  | .because f g k => tf f → tf g → tk k
  | .unresolved f g k => tf f → tf g → tk k
  | .becauseFact f kd n k => Refers L i n kd ∧ (tf f → tk kd → tk k)
  | .andFacts f g k => ∃ p, LineAbove L i 1 p ∧ (tk p → tf f → tf g → tk k)
  | .andFact f k => ∃ p, LineAbove L i 1 p ∧ (tk p → tf f → tk k)
  | .becauseTwo k1 n k2 m k => Refers L i n k1 ∧ Refers L i m k2 ∧ (tk k1 → tk k2 → tk k)
  | .andLine k1 n k => Refers L i n k1 ∧ ∃ p, LineAbove L i 1 p ∧ (tk p → tk k1 → tk k)
  | .andText _ _ _ => False
  | .thus k => ∃ p q, LineAbove L i 1 p ∧ LineAbove L i 2 q ∧ (tk p → tk q → tk k)
  | .so k1 n k2 m k => Refers L i n k1 ∧ Refers L i m k2 ∧ (tk k1 → tk k2 → tk k)

/-- The facts a line names. -/
def Line.facts : Line K F → List F
  | .fact f => [f]
  | .because f g _ | .unresolved f g _ | .andFacts f g _ => [f, g]
  | .becauseFact f _ _ _ | .andFact f _ => [f]
  | _ => []

/-- The facts a derivation rests on. -/
def leaves : Cause K F → List F
  | .fact _ f => [f]
  | .both _ a b => leaves a ++ leaves b

/-- The sets of terms of the derived incompatibilities. -/
def derived : Cause K F → List K
  | .fact _ _ => []
  | .both k a b => k :: (derived a ++ derived b)

end Spec
open Spec
namespace Report
variable {K F : Type} [DecidableEq K]

theorem put_fresh (r : Rep K F) (key : K ⊕ Nat) (v : Nat × Line K F) (h : ∀ e ∈ r, e.1 ≠ key) : put r key v = r ++ [(key, v)] := by
  induction r with
  | nil => rfl
  | cons e r ih =>
    have : e.1 ≠ key := h e (by simp)
    simp only [put, this, if_false, List.cons_append]
    rw [ih (fun e' h' => h e' (by simp [h']))]

theorem get_fresh (r : Rep K F) (k : K) (h : ∀ e ∈ r, e.1 ≠ .inl k) : get r k = none := by
  simp only [get, Option.map_eq_none_iff, List.find?_eq_none]
  intro e he
  simp [h e he]

/-- Lines, as they are printed. -/
abbrev out (r : Rep K F) : List (Nat × Line K F) := r.map (·.2)

/-- What has been written: numbers in order. -/
def Numbered (r : Rep K F) : Prop := ∀ (i : Nat) e, r[i]? = some e → e.2.1 = i ∧ ∀ n, e.1 = .inr n → n = i

theorem Numbered.snoc {r : Rep K F} (h : Numbered r) (key : K ⊕ Nat) (l : Line K F) (hk : ∀ n, key = .inr n → n = r.length) :
    Numbered (r ++ [(key, r.length, l)]) := by
  intro i e he
  rcases Nat.lt_trichotomy i r.length with hi | hi | hi
  · rw [List.getElem?_append_left hi] at he; exact h i e he
  · subst hi
    simp at he
    subst he
    exact ⟨rfl, hk⟩
  · rw [List.getElem?_eq_none (by simp; omega)] at he; cases he

theorem Numbered.noInr {r : Rep K F} (h : Numbered r) : ∀ e ∈ r, e.1 ≠ .inr r.length := by
  intro e he heq
  obtain ⟨i, hi, rfl⟩ := List.getElem_of_mem he
  have := (h i _ (List.getElem?_eq_getElem hi)).2 _ heq
  omega

/-- LineReadable lines stay so when more is written. -/
theorem Refers.mono {L : List (Nat × Line K F)} {i n : Nat} {k : K} (h : Refers L i n k) (hi : i ≤ L.length) (M : List (Nat × Line K F)) :
    Refers (L ++ M) i n k := by
  obtain ⟨⟨j, l, hj, hl, hc⟩, hu⟩ := h
  refine ⟨⟨j, l, hj, by rw [List.getElem?_append_left (by omega)]; exact hl, hc⟩, fun j' v hj' hv => ?_⟩
  rw [List.getElem?_append_left (by omega)] at hv
  exact hu j' v hj' hv

theorem LineAbove.mono {L : List (Nat × Line K F)} {i d : Nat} {k : K} (h : LineAbove L i d k) (M : List (Nat × Line K F)) : LineAbove (L ++ M) i d k := by
  obtain ⟨j, v, hj, hv, hc⟩ := h
  have : j < L.length := by
    rcases Nat.lt_or_ge j L.length with h | h
    · exact h
    · rw [List.getElem?_eq_none h] at hv; cases hv
  exact ⟨j, v, hj, by rw [List.getElem?_append_left this]; exact hv, hc⟩

theorem LineReadable.mono {tk : K → Prop} {tf : F → Prop} {L : List (Nat × Line K F)} {i : Nat} {l : Line K F} (h : LineReadable tk tf L i l)
    (hi : i ≤ L.length) (M : List (Nat × Line K F)) : LineReadable tk tf (L ++ M) i l := by
  cases l with
  | fact => trivial
  | blank => trivial
  | because => exact h
  | unresolved => exact h
  | becauseFact => exact ⟨Refers.mono h.1 hi M, h.2⟩
  | andFacts => obtain ⟨p, h1, h2⟩ := h; exact ⟨p, LineAbove.mono h1 M, h2⟩
  | andFact => obtain ⟨p, h1, h2⟩ := h; exact ⟨p, LineAbove.mono h1 M, h2⟩
  | becauseTwo => exact ⟨Refers.mono h.1 hi M, Refers.mono h.2.1 hi M, h.2.2⟩
  | andLine => obtain ⟨h0, p, h1, h2⟩ := h; exact ⟨Refers.mono h0 hi M, p, LineAbove.mono h1 M, h2⟩
  | andText => exact h
  | thus => obtain ⟨p, q, h1, h2, h3⟩ := h; exact ⟨p, q, LineAbove.mono h1 M, LineAbove.mono h2 M, h3⟩
  | so => exact ⟨Refers.mono h.1 hi M, Refers.mono h.2.1 hi M, h.2.2⟩

/-- What is added to a report: the keys, the facts named, and when the lines can be followed. -/
structure Grown (ks : List K) (fs : List F) (Hyp : (K → Prop) → (F → Prop) → Prop) (r r' : Rep K F) : Prop where
  new : ∃ ls, r' = r ++ ls ∧ (∀ e ∈ ls, ∀ k, e.1 = .inl k → k ∈ ks)
  numbered : Numbered r'
  readable : ∀ tk tf, Hyp tk tf → ∀ (i : Nat) (v : Nat × Line K F), r.length ≤ i → (out r')[i]? = some v → LineReadable tk tf (out r') i v.2
  facts : ∀ f, f ∈ fs ↔ ∃ (i : Nat) (v : Nat × Line K F), r.length ≤ i ∧ (out r')[i]? = some v ∧ f ∈ Line.facts v.2
  keys : ∀ (i : Nat) (e : (K ⊕ Nat) × Nat × Line K F) (k : K), r.length ≤ i → r'[i]? = some e → e.1 = .inl k → Line.concl e.2.2 = some k

theorem out_length (r : Rep K F) : (out r).length = r.length := by simp [out]

theorem lt_of_some {α : Type} {l : List α} {i : Nat} {a : α} (h : l[i]? = some a) : i < l.length := by
  rcases Nat.lt_or_ge i l.length with h' | h'
  · exact h'
  · rw [List.getElem?_eq_none h'] at h; cases h

theorem Grown.trans {ks1 ks2 : List K} {fs1 fs2 : List F} {H1 H2 : (K → Prop) → (F → Prop) → Prop} {r r1 r2 : Rep K F}
    (h1 : Grown ks1 fs1 H1 r r1) (h2 : Grown ks2 fs2 H2 r1 r2) :
    Grown (ks1 ++ ks2) (fs1 ++ fs2) (fun tk tf => H1 tk tf ∧ H2 tk tf) r r2 := by
  obtain ⟨l1, e1, k1⟩ := h1.new
  obtain ⟨l2, e2, k2⟩ := h2.new
  have hlen : r.length ≤ r1.length := by rw [e1]; simp
  have hout : out r2 = out r1 ++ out l2 := by rw [e2]; simp [out]
  refine ⟨⟨l1 ++ l2, by rw [e2, e1, List.append_assoc], ?_⟩, h2.numbered, ?_, ?_, ?_⟩
  · intro e he k hk
    rw [List.mem_append] at he ⊢
    rcases he with he | he
    · exact Or.inl (k1 e he k hk)
    · exact Or.inr (k2 e he k hk)
  · intro tk tf hH i v hi hv
    rcases Nat.lt_or_ge i r1.length with hlt | hge
    · have hv' : (out r1)[i]? = some v := by
        rw [hout, List.getElem?_append_left (by rw [out_length]; exact hlt)] at hv; exact hv
      rw [hout]
      exact LineReadable.mono (h1.readable tk tf hH.1 i v hi hv') (by rw [out_length]; omega) _
    · exact h2.readable tk tf hH.2 i v hge hv
  · intro f
    rw [List.mem_append, h1.facts, h2.facts]
    constructor
    · rintro (⟨i, v, hi, hv, hf⟩ | ⟨i, v, hi, hv, hf⟩)
      · refine ⟨i, v, hi, ?_, hf⟩
        rw [hout, List.getElem?_append_left (lt_of_some hv)]; exact hv
      · exact ⟨i, v, by omega, hv, hf⟩
    · rintro ⟨i, v, hi, hv, hf⟩
      rcases Nat.lt_or_ge i r1.length with hlt | hge
      · left
        rw [hout, List.getElem?_append_left (by rw [out_length]; exact hlt)] at hv
        exact ⟨i, v, hi, hv, hf⟩
      · exact Or.inr ⟨i, v, hge, hv, hf⟩
  · intro i e k hi he hk
    rcases Nat.lt_or_ge i r1.length with hlt | hge
    · rw [e2, List.getElem?_append_left hlt] at he
      exact h1.keys i e k hi he hk
    · exact h2.keys i e k hge he hk

theorem Grown.weaken {ks ks' : List K} {fs fs' : List F} {H H' : (K → Prop) → (F → Prop) → Prop} {r r' : Rep K F}
    (h : Grown ks fs H r r') (hk : ∀ k ∈ ks, k ∈ ks') (hf : ∀ f, f ∈ fs' ↔ f ∈ fs) (hH : ∀ tk tf, H' tk tf → H tk tf) :
    Grown ks' fs' H' r r' := by
  obtain ⟨l1, e1, k1⟩ := h.new
  exact ⟨⟨l1, e1, fun e he k hk' => hk k (k1 e he k hk')⟩, h.numbered, fun tk tf hh => h.readable tk tf (hH tk tf hh),
    fun f => by rw [hf, h.facts], h.keys⟩

/-- A line with a new key. -/
theorem Grown.line {r : Rep K F} (hn : Numbered r) (key : K ⊕ Nat) (l : Line K F) (Hyp : (K → Prop) → (F → Prop) → Prop) (ks : List K)
    (hfresh : ∀ e ∈ r, e.1 ≠ key) (hks : ∀ k, key = .inl k → k ∈ ks ∧ Line.concl l = some k) (hinr : ∀ n, key = .inr n → n = r.length)
    (hr : ∀ tk tf, Hyp tk tf → LineReadable tk tf (out r) r.length l) :
    write r key l = r ++ [(key, r.length, l)] ∧ Grown ks (Line.facts l) Hyp r (write r key l) := by
  have hw : write r key l = r ++ [(key, r.length, l)] := put_fresh r key _ hfresh
  refine ⟨hw, ?_⟩
  rw [hw]
  have hout : out (r ++ [(key, r.length, l)]) = out r ++ [(r.length, l)] := by simp [out]
  have hlast : ∀ (i : Nat) (v : Nat × Line K F), r.length ≤ i → (out (r ++ [(key, r.length, l)]))[i]? = some v → i = r.length ∧ v = (r.length, l) := by
    intro i v hi hv
    have h1 := lt_of_some hv
    rw [out_length] at h1
    simp at h1
    have hi' : i = r.length := by omega
    subst hi'
    refine ⟨rfl, ?_⟩
    rw [hout, List.getElem?_append_right (by rw [out_length]; omega)] at hv
    simpa [out_length] using hv.symm
  refine ⟨⟨_, rfl, ?_⟩, hn.snoc key l hinr, ?_, ?_, ?_⟩
  · intro e he k hk
    simp at he
    subst he
    exact (hks k hk).1
  · intro tk tf hH i v hi hv
    obtain ⟨rfl, rfl⟩ := hlast i v hi hv
    rw [hout]
    exact LineReadable.mono (hr tk tf hH) (by rw [out_length]; omega) _
  · intro f
    constructor
    · intro hf
      refine ⟨r.length, (r.length, l), by omega, ?_, hf⟩
      rw [hout, List.getElem?_append_right (by rw [out_length]; omega)]
      simp [out_length]
    · rintro ⟨i, v, hi, hv, hf⟩
      obtain ⟨rfl, rfl⟩ := hlast i v hi hv
      exact hf
  · intro i e k hi he hk
    have h1 := lt_of_some he
    simp at h1
    have hi' : i = r.length := by omega
    subst hi'
    simp at he
    subst he
    exact (hks k hk).2

/-- What `generate` adds for a derived incompatibility. -/
structure Adds (c : Cause K F) (r r' : Rep K F) : Prop where
  grown : Grown (derived c) (leaves c) (fun tk tf => DerivesRight tk tf c) r r'
  last : ∃ (pre : Rep K F) (n : Nat) (l : Line K F), r' = pre ++ [(.inl c.key, n, l)] ∧ Line.concl l = some c.key

theorem Adds.above {c : Cause K F} {r r' : Rep K F} (h : Adds c r r') : LineAbove (out r') r'.length 1 c.key := by
  obtain ⟨i, n, l, rfl, hc⟩ := h.last
  refine ⟨i.length, (n, l), by simp, ?_, hc⟩
  simp [out]

/-- New keys stay new. -/
theorem Grown.fresh {ks : List K} {fs : List F} {H : (K → Prop) → (F → Prop) → Prop} {r r' : Rep K F} (h : Grown ks fs H r r') {k : K}
    (hr : ∀ e ∈ r, e.1 ≠ .inl k) (hk : k ∉ ks) : ∀ e ∈ r', e.1 ≠ .inl k := by
  obtain ⟨l1, e1, k1⟩ := h.new
  intro e he hek
  rw [e1, List.mem_append] at he
  rcases he with he | he
  · exact hr e he hek
  · exact hk (k1 e he k hek)

/-- The number of a line that was written. -/
theorem Grown.number {ks : List K} {fs : List F} {H : (K → Prop) → (F → Prop) → Prop} {r r' : Rep K F} (h : Grown ks fs H r r') {k : K}
    (hr : ∀ e ∈ r, e.1 ≠ .inl k) (hk : ∃ e ∈ r', e.1 = .inl k) : Refers (out r') r'.length (Report.number r' k) k := by
  obtain ⟨e0, he0, hk0⟩ := hk
  cases hf : r'.find? (fun e => decide (e.1 = .inl k)) with
  | none =>
    rw [List.find?_eq_none] at hf
    exact absurd (by simpa using hk0) (hf e0 he0)
  | some e =>
    have hp : e.1 = .inl k := by simpa using List.find?_some hf
    have hm := List.mem_of_find?_eq_some hf
    obtain ⟨i, hi, hie⟩ := List.getElem_of_mem hm
    have hsome : r'[i]? = some e := by rw [List.getElem?_eq_getElem hi, hie]
    have hri : r.length ≤ i := by
      rcases Nat.lt_or_ge i r.length with hlt | hge
      · exfalso
        obtain ⟨l1, e1, _⟩ := h.new
        rw [e1, List.getElem?_append_left hlt] at hsome
        exact hr e (List.mem_of_getElem? hsome) hp
      · exact hge
    have hc := h.keys i e k hri hsome hp
    have hn := (h.numbered i e hsome).1
    have hnum : Report.number r' k = i := by
      simp only [Report.number, Report.get, hf, Option.map_some, Option.getD_some, hn]
    rw [hnum]
    refine ⟨⟨i, e.2.2, hi, ?_, hc⟩, fun j v hj hv hvn => ?_⟩
    · simp only [out, List.getElem?_map, hsome, Option.map_some]
      rw [← hn]
    · simp only [out, List.getElem?_map] at hv
      obtain ⟨e', he', rfl⟩ := Option.map_eq_some_iff.1 hv
      have : e'.2.1 = j := (h.numbered j e' he').1
      have hji : j = i := by rw [← this]; exact hvn
      subst hji
      rw [hsome] at he'
      cases he'
      exact hc

/-! ### The derivations in which nothing is used twice -/

variable (missing : F → Bool)

def Cause.size : Cause K F → Nat
  | .fact _ _ => 0
  | .both _ a b => a.size + b.size + 1

def Good (c : Cause K F) : Prop :=
  ∀ r : Rep K F, Numbered r → (derived c).Nodup → (∀ k ∈ derived c, ∀ e ∈ r, e.1 ≠ .inl k) → Adds c r (generate missing c r)

/-- The end of `generate`: a line for the incompatibility itself. -/
theorem Adds.finish {c : Cause K F} {r r1 : Rep K F} {ks : List K} {fs : List F} {H : (K → Prop) → (F → Prop) → Prop}
    (h : Grown ks fs H r r1) (l : Line K F) (hc : Line.concl l = some c.key) (hck : c.key ∈ derived c) (hks : ∀ k ∈ ks, k ∈ derived c)
    (hnew : c.key ∉ ks) (hr : ∀ e ∈ r, e.1 ≠ .inl c.key) (hfs : ∀ f, f ∈ leaves c ↔ f ∈ fs ∨ f ∈ Line.facts l)
    (hH : ∀ tk tf, DerivesRight tk tf c → H tk tf ∧ LineReadable tk tf (out r1) r1.length l) :
    Adds c r (write r1 (.inl c.key) l) := by
  obtain ⟨hw, hg⟩ := Grown.line h.numbered (.inl c.key) l (fun tk tf => DerivesRight tk tf c) (derived c)
    (h.fresh hr hnew) (fun k hk => by injection hk with hk; subst hk; exact ⟨hck, hc⟩) (fun n hn => by cases hn) (fun tk tf hh => (hH tk tf hh).2)
  refine ⟨(h.trans hg).weaken ?_ ?_ ?_, ⟨r1, r1.length, l, hw, hc⟩⟩
  · intro k hk
    rcases List.mem_append.1 hk with hk | hk
    · exact hks k hk
    · exact hk
  · intro f; rw [hfs, List.mem_append]
  · intro tk tf hh; exact ⟨(hH tk tf hh).1, hh⟩

theorem Grown.refl {r : Rep K F} (hn : Numbered r) : Grown [] [] (fun _ _ => True) r r := by
  refine ⟨⟨[], by simp, by simp⟩, hn, ?_, ?_, ?_⟩
  · intro tk tf _ i v hi hv; have := lt_of_some hv; rw [out_length] at this; omega
  · intro f
    constructor
    · simp
    · rintro ⟨i, v, hi, hv, _⟩; have := lt_of_some hv; rw [out_length] at this; omega
  · intro i e k hi he; have := lt_of_some he; omega

theorem good_simple (k k1 k2 : K) (f g : F) : Good missing (.both k (.fact k1 f) (.fact k2 g)) := by
  intro r hn hd hf
  refine Adds.finish (c := .both k (.fact k1 f) (.fact k2 g)) (Grown.refl hn) _ ?_ (by simp [Cause.key, derived]) (by simp) (by simp)
    (hf k (by simp [derived])) ?_ ?_
  · cases missing g <;> rfl
  · intro x; cases missing g <;> simp [leaves, Line.facts]
  · intro tk tf hh
    refine ⟨trivial, ?_⟩
    cases missing g <;> exact hh.1

/-- The end of `generate` for a derived incompatibility and a fact. -/
def factCase (kd : K) (x y : Cause K F) (f : F) (k : K) (r : Rep K F) : Rep K F :=
  match get r kd with
    | some l => write r (.inl k) (.becauseFact f kd l.1 k)
    | none => match x, y with
      | .both kx x1 x2, .fact _ g => write (generate missing (.both kx x1 x2) r) (.inl k) (.andFacts g f k)
      | .fact _ g, .both ky y1 y2 => write (generate missing (.both ky y1 y2) r) (.inl k) (.andFacts g f k)
      | x, y => write (generate missing (.both kd x y) r) (.inl k) (.andFact f k)

theorem good_fact (c : Cause K F) (kd : K) (x y : Cause K F) (f : F) (r : Rep K F) (hn : Numbered r) (hd : (derived c).Nodup)
    (hf : ∀ k ∈ derived c, ∀ e ∈ r, e.1 ≠ .inl k)
    (hx : ∀ kx x1 x2, x = .both kx x1 x2 → Good missing x) (hy : ∀ ky y1 y2, y = .both ky y1 y2 → Good missing y)
    (hxy : Good missing (.both kd x y))
    (hder : derived c = c.key :: derived (.both kd x y)) (hleaf : ∀ g, g ∈ leaves c ↔ g ∈ leaves (.both kd x y) ∨ g = f)
    (hfol : ∀ tk tf, DerivesRight tk tf c → (tk kd → tf f → tk c.key) ∧ DerivesRight tk tf (.both kd x y)) :
    Adds c r (factCase missing kd x y f c.key r) := by
  have hget : get r kd = none := get_fresh r kd (hf kd (by rw [hder]; simp [derived]))
  have hck : c.key ∈ derived c := by rw [hder]; simp
  rw [hder, List.nodup_cons] at hd
  have hrc := hf c.key hck
  have hsub : ∀ k ∈ derived (.both kd x y), ∀ e ∈ r, e.1 ≠ .inl k := fun k hk => hf k (by rw [hder]; simp [hk])
  have hnd : (derived x).Nodup ∧ (derived y).Nodup := by
    have := hd.2
    simp only [derived, List.nodup_cons] at this
    have h2 := List.nodup_append.1 this.2
    exact ⟨h2.1, h2.2.1⟩
  unfold factCase
  rw [hget]
  match x, y, hx, hy, hxy, hder, hleaf, hfol, hd, hsub, hnd with
  | .both kx x1 x2, .fact ky g, hx, hy, hxy, hder, hleaf, hfol, hd, hsub, hnd =>
    have ha := hx kx x1 x2 rfl r hn hnd.1 (fun k hk => hsub k (by simp [derived] at hk ⊢; simp [hk]))
    refine Adds.finish ha.grown _ rfl hck ?_ ?_ hrc ?_ ?_
    · intro k hk; rw [hder]; simp [derived] at hk ⊢; simp [hk]
    · intro hk; exact hd.1 (by simp [derived] at hk ⊢; simp [hk])
    · intro z; rw [hleaf]; simp [leaves, Line.facts]
      constructor
      · rintro ((h | h | h) | h) <;> simp [h]
      · rintro ((h | h) | h | h) <;> simp [h]
    · intro tk tf hh
      obtain ⟨h1, h2⟩ := hfol tk tf hh
      refine ⟨h2.2.1, kx, ha.above, fun hp hg hf' => h1 (h2.1 hp hg) hf'⟩
  | .fact kx g, .both ky y1 y2, hx, hy, hxy, hder, hleaf, hfol, hd, hsub, hnd =>
    have ha := hy ky y1 y2 rfl r hn hnd.2 (fun k hk => hsub k (by simp [derived] at hk ⊢; simp [hk]))
    refine Adds.finish ha.grown _ rfl hck ?_ ?_ hrc ?_ ?_
    · intro k hk; rw [hder]; simp [derived] at hk ⊢; simp [hk]
    · intro hk; exact hd.1 (by simp [derived] at hk ⊢; simp [hk])
    · intro z; rw [hleaf]; simp [leaves, Line.facts]
      constructor
      · rintro ((h | h | h) | h) <;> simp [h]
      · rintro ((h | h) | h | h) <;> simp [h]
    · intro tk tf hh
      obtain ⟨h1, h2⟩ := hfol tk tf hh
      refine ⟨h2.2.2, ky, ha.above, fun hp hg hf' => h1 (h2.1 hg hp) hf'⟩
  | .fact kx g, .fact ky g', hx, hy, hxy, hder, hleaf, hfol, hd, hsub, hnd =>
    have ha := hxy r hn hd.2 hsub
    refine Adds.finish ha.grown _ rfl hck ?_ hd.1 hrc ?_ ?_
    · intro k hk; rw [hder]; simp [hk]
    · intro z; rw [hleaf]; simp [Line.facts]
    · intro tk tf hh
      obtain ⟨h1, h2⟩ := hfol tk tf hh
      exact ⟨h2, kd, ha.above, h1⟩
  | .both kx x1 x2, .both ky y1 y2, hx, hy, hxy, hder, hleaf, hfol, hd, hsub, hnd =>
    have ha := hxy r hn hd.2 hsub
    refine Adds.finish ha.grown _ rfl hck ?_ hd.1 hrc ?_ ?_
    · intro k hk; rw [hder]; simp [hk]
    · intro z; rw [hleaf]; simp [Line.facts]
    · intro tk tf hh
      obtain ⟨h1, h2⟩ := hfol tk tf hh
      exact ⟨h2, kd, ha.above, h1⟩

theorem simple_one {c : Cause K F} (h : isSimple c = true) {r r' : Rep K F} (hn : Numbered r) (hf : ∀ k ∈ derived c, ∀ e ∈ r, e.1 ≠ .inl k)
    (he : generate missing c r = r') : r'.length = r.length + 1 := by
  match c, h with
  | .both k (.fact k1 f) (.fact k2 g), _ =>
    rw [← he]
    show (write r (.inl k) _).length = _
    rw [show ∀ l, write r (.inl k) l = r ++ [(.inl k, r.length, l)] from fun l => put_fresh r _ _ (hf k (by simp [derived]))]
    simp

theorem Adds.mem {c : Cause K F} {r r' : Rep K F} (h : Adds c r r') : ∃ e ∈ r', e.1 = .inl c.key := by
  obtain ⟨pre, n, l, rfl, _⟩ := h.last
  exact ⟨(.inl c.key, n, l), by simp, rfl⟩

theorem good_two (k : K) (a b : Cause K F) (ka kb : K) (x1 y1 x2 y2 : Cause K F) (hae : a = .both ka x1 y1) (hbe : b = .both kb x2 y2)
    (ha : Good missing a) (hb : Good missing b) : Good missing (.both k a b) := by
  intro r hn hd hf
  have hka : a.key = ka := by rw [hae]; rfl
  have hkb : b.key = kb := by rw [hbe]; rfl
  have hda : ka ∈ derived a := by rw [hae]; simp [derived]
  have hdb : kb ∈ derived b := by rw [hbe]; simp [derived]
  have hha : ∀ tk (tf : F → Prop), CauseHolds tk tf a = tk ka := by intro tk tf; rw [hae]; rfl
  have hhb : ∀ tk (tf : F → Prop), CauseHolds tk tf b = tk kb := by intro tk tf; rw [hbe]; rfl
  simp only [derived, List.nodup_cons] at hd
  obtain ⟨hk, hd⟩ := hd
  obtain ⟨hnda, hndb, hdis⟩ := List.nodup_append.1 hd
  have hk1 : k ∉ derived a := fun h => hk (by simp [h])
  have hk2 : k ∉ derived b := fun h => hk (by simp [h])
  have hfa : ∀ k ∈ derived a, ∀ e ∈ r, e.1 ≠ .inl k := fun k' h => hf k' (by simp [derived, h])
  have hfb : ∀ k ∈ derived b, ∀ e ∈ r, e.1 ≠ .inl k := fun k' h => hf k' (by simp [derived, h])
  have hfk : ∀ e ∈ r, e.1 ≠ .inl k := hf k (by simp [derived])
  have hga : get r ka = none := get_fresh r ka (hfa ka hda)
  have hgb : get r kb = none := get_fresh r kb (hfb kb hdb)
  have hgen : generate missing (.both k a b) r =
      if isSimple a then write (generate missing a (generate missing b r)) (.inl k) (.thus k)
      else if isSimple b then write (generate missing b (generate missing a r)) (.inl k) (.thus k)
      else
        let r1 := generate missing a r
        let r2 := generate missing b (write r1 (.inr r1.length) .blank)
        let r3 := write r2 (.inr r2.length) .blank
        write r3 (.inl k) (.so ka (number r3 ka) kb (number r3 kb) k) := by
    subst hae; subst hbe
    rw [generate]
    simp only [hga, hgb]
  rw [hgen]
  have hleaf : ∀ f, f ∈ leaves (.both k a b) ↔ f ∈ leaves a ∨ f ∈ leaves b := fun f => by simp [leaves]
  split
  · rename_i hs
    have h1 := hb r hn hndb hfb
    have hfa1 : ∀ k ∈ derived a, ∀ e ∈ generate missing b r, e.1 ≠ .inl k :=
      fun k' h' => h1.grown.fresh (hfa k' h') (fun h'' => hdis k' h' k' h'' rfl)
    have h2 := ha (generate missing b r) h1.grown.numbered hnda hfa1
    have hlen := simple_one missing hs h1.grown.numbered hfa1 rfl
    refine Adds.finish (c := .both k a b) (h1.grown.trans h2.grown) (.thus k) rfl (by simp [derived, Cause.key]) ?_ ?_ hfk ?_ ?_
    · intro k' h'; simp [derived] at h' ⊢; rcases h' with h' | h' <;> simp [h']
    · intro h'; rcases List.mem_append.1 h' with h' | h'
      · exact hk2 h'
      · exact hk1 h'
    · intro f; rw [hleaf, List.mem_append]; simp [Line.facts]; exact Or.comm
    · intro tk tf hh
      obtain ⟨hc, h3, h4⟩ := hh
      rw [hha, hhb] at hc
      refine ⟨⟨h4, h3⟩, ka, kb, ?_, ?_, hc⟩
      · rw [← hka]; exact h2.above
      · obtain ⟨l2, e2, _⟩ := h2.grown.new
        obtain ⟨j, v, hj, hv, hvc⟩ := LineAbove.mono h1.above (out l2)
        rw [hkb] at hvc
        refine ⟨j, v, by rw [hlen]; omega, ?_, hvc⟩
        rw [e2]
        simpa [out] using hv
  · split
    · rename_i hs
      have h1 := ha r hn hnda hfa
      have hfb1 : ∀ k ∈ derived b, ∀ e ∈ generate missing a r, e.1 ≠ .inl k :=
        fun k' h' => h1.grown.fresh (hfb k' h') (fun h'' => hdis k' h'' k' h' rfl)
      have h2 := hb (generate missing a r) h1.grown.numbered hndb hfb1
      have hlen := simple_one missing hs h1.grown.numbered hfb1 rfl
      refine Adds.finish (c := .both k a b) (h1.grown.trans h2.grown) (.thus k) rfl (by simp [derived, Cause.key]) ?_ ?_ hfk ?_ ?_
      · intro k' h'; simp [derived] at h' ⊢; rcases h' with h' | h' <;> simp [h']
      · intro h'; rcases List.mem_append.1 h' with h' | h'
        · exact hk1 h'
        · exact hk2 h'
      · intro f; rw [hleaf, List.mem_append]; simp [Line.facts]
      · intro tk tf hh
        obtain ⟨hc, h3, h4⟩ := hh
        rw [hha, hhb] at hc
        refine ⟨⟨h3, h4⟩, kb, ka, ?_, ?_, fun h h' => hc h' h⟩
        · rw [← hkb]; exact h2.above
        · obtain ⟨l2, e2, _⟩ := h2.grown.new
          obtain ⟨j, v, hj, hv, hvc⟩ := LineAbove.mono h1.above (out l2)
          rw [hka] at hvc
          refine ⟨j, v, by rw [hlen]; omega, ?_, hvc⟩
          rw [e2]
          simpa [out] using hv
    · have h1 := ha r hn hnda hfa
      have hblank : ∀ r' : Rep K F, Numbered r' → Grown [] [] (fun _ _ => True) r' (write r' (.inr r'.length) .blank) := by
        intro r' hn'
        have := (Grown.line (ks := []) hn' (.inr r'.length) .blank (fun _ _ => True) hn'.noInr (fun _ h => by cases h)
          (fun n h => by injection h with h; exact h.symm) (fun _ _ _ => trivial)).2
        exact this.weaken (fun _ h => h) (fun f => by simp [Line.facts]) (fun _ _ h => h)
      have g1 := h1.grown.trans (hblank _ h1.grown.numbered)
      have hfb1 : ∀ k ∈ derived b, ∀ e ∈ write (generate missing a r) (.inr (generate missing a r).length) .blank, e.1 ≠ .inl k :=
        fun k' h' => g1.fresh (hfb k' h') (fun h'' => by simp at h''; exact hdis k' h'' k' h' rfl)
      have h2 := hb _ g1.numbered hndb hfb1
      have g2 := g1.trans h2.grown
      have g3 := g2.trans (hblank _ h2.grown.numbered)
      refine Adds.finish (c := .both k a b) g3 _ rfl (by simp [derived, Cause.key]) ?_ ?_ hfk ?_ ?_
      · intro k' h'; simp [derived] at h' ⊢; rcases h' with h' | h' <;> simp [h']
      · intro h'; simp at h'; rcases h' with h' | h'
        · exact hk1 h'
        · exact hk2 h'
      · intro f; rw [hleaf]; simp [Line.facts]
      · intro tk tf hh
        obtain ⟨hc, h3, h4⟩ := hh
        rw [hha, hhb] at hc
        have hmem : ∀ {kk : K} {r' : Rep K F} {l : Line K F}, Numbered r' → (∃ e ∈ r', e.1 = .inl kk) →
            ∃ e ∈ write r' (.inr r'.length) l, e.1 = .inl kk := by
          rintro kk r' l hn' ⟨e, he, hek⟩
          refine ⟨e, ?_, hek⟩
          rw [write, put_fresh _ _ _ hn'.noInr]
          simp [he]
        refine ⟨⟨⟨⟨h3, trivial⟩, h4⟩, trivial⟩, ?_, ?_, hc⟩
        · refine g3.number (hfa ka hda) (hmem h2.grown.numbered ?_)
          have hm : ∃ e ∈ write (generate missing a r) (.inr (generate missing a r).length) .blank, e.1 = .inl ka :=
            hmem h1.grown.numbered (by rw [← hka]; exact h1.mem)
          obtain ⟨e, he, hek⟩ := hm
          obtain ⟨l2, e2, _⟩ := h2.grown.new
          exact ⟨e, by rw [e2]; simp [he], hek⟩
        · refine g3.number (hfb kb hdb) (hmem h2.grown.numbered ?_)
          rw [← hkb]; exact h2.mem

theorem good_all : ∀ (n : Nat) (c : Cause K F), c.size ≤ n → (∀ k f, c ≠ .fact k f) → Good missing c := by
  intro n
  induction n with
  | zero =>
    intro c hs hc
    cases c with
    | fact k f => exact absurd rfl (hc k f)
    | both k a b => simp [Cause.size] at hs
  | succ n ih =>
    intro c hs hc
    match c, hs with
    | .fact k f, _ => exact absurd rfl (hc k f)
    | .both k (.fact k1 f) (.fact k2 g), _ => exact good_simple missing k k1 k2 f g
    | .both k (.both ka x1 y1) (.both kb x2 y2), hs =>
      simp only [Cause.size] at hs
      exact good_two missing k _ _ ka kb x1 y1 x2 y2 rfl rfl (ih _ (by simp only [Cause.size]; omega) (by simp))
        (ih _ (by simp only [Cause.size]; omega) (by simp))
    | .both k (.both kd x y) (.fact kf f), hs =>
      simp only [Cause.size] at hs
      intro r hn hd hf
      have h : generate missing (.both k (.both kd x y) (.fact kf f)) r = factCase missing kd x y f k r := by
        cases x <;> cases y <;> simp only [generate, factCase] <;> cases get r kd <;> rfl
      rw [h]
      refine good_fact missing (.both k (.both kd x y) (.fact kf f)) kd x y f r hn hd hf ?_ ?_ (ih _ (by simp only [Cause.size]; omega) (by simp)) ?_ ?_ ?_
      · rintro kx x1 x2 rfl; exact ih _ (by omega) (by simp)
      · rintro kx x1 x2 rfl; exact ih _ (by omega) (by simp)
      · simp [derived, Cause.key]
      · intro g; simp [leaves, or_assoc]
      · intro tk tf hh; exact ⟨hh.1, hh.2.1⟩
    | .both k (.fact kf f) (.both kd x y), hs =>
      simp only [Cause.size] at hs
      intro r hn hd hf
      have h : generate missing (.both k (.fact kf f) (.both kd x y)) r = factCase missing kd x y f k r := by
        cases x <;> cases y <;> simp only [generate, factCase] <;> cases get r kd <;> rfl
      rw [h]
      refine good_fact missing (.both k (.fact kf f) (.both kd x y)) kd x y f r hn hd hf ?_ ?_ (ih _ (by simp only [Cause.size]; omega) (by simp)) ?_ ?_ ?_
      · rintro kx x1 x2 rfl; exact ih _ (by omega) (by simp)
      · rintro kx x1 x2 rfl; exact ih _ (by omega) (by simp)
      · simp [derived, Cause.key]
      · intro g; simp [leaves]; exact Or.comm
      · intro tk tf hh; exact ⟨fun h1 h2 => hh.1 h2 h1, hh.2.2⟩

/-! ### The order of the lines -/

theorem insert_last (v : Nat × Line K F) : ∀ (ws : List (Nat × Line K F)), (∀ w ∈ ws, w.1 ≤ v.1) → insert v ws = ws ++ [v]
  | [], _ => rfl
  | w :: ws, h => by
    have : ¬ v.1 < w.1 := by have := h w (by simp); omega
    simp only [insert, this, if_false, List.cons_append]
    rw [insert_last v ws (fun w' h' => h w' (by simp [h']))]

theorem sorted_id (vs : List (Nat × Line K F)) (h : ∀ (i : Nat) v, vs[i]? = some v → v.1 = i) : sorted vs = vs := by
  have key : ∀ (vs acc : List (Nat × Line K F)), (∀ (i : Nat) v, (acc ++ vs)[i]? = some v → v.1 = i) →
      vs.foldl (fun acc v => insert v acc) acc = acc ++ vs := by
    intro vs
    induction vs with
    | nil => intro acc _; simp
    | cons v vs ih =>
      intro acc hh
      have hv : v.1 = acc.length := hh acc.length v (by simp)
      have : insert v acc = acc ++ [v] := insert_last v acc (fun w hw => by
        obtain ⟨i, hi, rfl⟩ := List.getElem_of_mem hw
        have := hh i acc[i] (by rw [List.getElem?_append_left hi, List.getElem?_eq_getElem hi])
        omega)
      rw [List.foldl_cons, this, ih (acc ++ [v]) (by simpa using hh)]
      simp
  simpa [sorted] using key vs [] (by simpa using h)

theorem report_eq (c : Cause K F) (h : Numbered (generate missing c [])) : report missing c = out (generate missing c []) := by
  refine sorted_id _ (fun i v hv => ?_)
  simp only [List.getElem?_map] at hv
  obtain ⟨e, he, rfl⟩ := Option.map_eq_some_iff.1 hv
  exact (h i e he).1

end Report

open Report

/-- C100: the explanation of a failure in whose derivation nothing is used twice. The lines are numbered from 0. Whatever the incompatibilities mean, if
the derivation is right then every line can be followed from facts and from what is above it. The last line is the conclusion; the facts that are
named are those the derivation rests on, all of them. -/
theorem report_explains_partial {K F : Type} [DecidableEq K] (missing : F → Bool) (k : K) (a b : Cause K F)
    (hd : (derived (.both k a b)).Nodup) :
    let L := report missing (.both k a b)
    (∀ (i : Nat) (v : Nat × Line K F), L[i]? = some v → v.1 = i) ∧
    (∀ tk tf, DerivesRight tk tf (.both k a b) → ∀ (i : Nat) (v : Nat × Line K F), L[i]? = some v → LineReadable tk tf L i v.2) ∧
    (∃ v, L.getLast? = some v ∧ Line.concl v.2 = some k) ∧
    (∀ f, f ∈ leaves (.both k a b) ↔ ∃ v ∈ L, f ∈ Line.facts v.2) := by
  have h := good_all missing _ (.both k a b) (Nat.le_refl _) (by simp) [] (fun i e he => by simp at he) hd (by simp)
  have hL := report_eq missing (.both k a b) h.grown.numbered
  simp only [hL]
  refine ⟨fun i v hv => ?_, fun tk tf hf i v hv => h.grown.readable tk tf hf i v (by simp) hv, ?_, fun f => ?_⟩
  · simp only [out, List.getElem?_map] at hv
    obtain ⟨e, he, rfl⟩ := Option.map_eq_some_iff.1 hv
    exact (h.grown.numbered i e he).1
  · obtain ⟨pre, n, l, he, hc⟩ := h.last
    refine ⟨(n, l), ?_, hc⟩
    rw [he]; simp [out]
  · rw [h.grown.facts]
    constructor
    · rintro ⟨i, v, _, hv, hf⟩; exact ⟨v, List.mem_of_getElem? hv, hf⟩
    · rintro ⟨v, hv, hf⟩
      obtain ⟨i, hi, rfl⟩ := List.getElem_of_mem hv
      exact ⟨i, _, by simp, List.getElem?_eq_getElem hi, hf⟩

/-- C100: a failure that is a fact is explained by the fact. -/
theorem report_fact {K F : Type} [DecidableEq K] (missing : F → Bool) (k : K) (f : F) : report missing (.fact k f) = [(0, .fact f)] := rfl

namespace Report

/-! ### Cases -/

def fct (n : Nat) : Cause Nat Nat := .fact (100 + n) n

/-- 9 from 5 (from 3, from 1) and 8 (from 7, from 6): all kinds of lines. -/
def wide : Cause Nat Nat :=
  .both 9 (.both 5 (.both 3 (.both 1 (fct 1) (fct 2)) (fct 3)) (fct 4))
    (.both 8 (.both 7 (.both 6 (fct 5) (fct 6)) (fct 7)) (.both 2 (fct 8) (fct 9)))

example : (derived wide).Nodup := by decide
example : report (fun n => n == 2) wide = [(0, .unresolved 1 2 1), (1, .andFacts 3 4 5), (2, .blank), (3, .because 5 6 6), (4, .andFact 7 7),
    (5, .because 8 9 2), (6, .thus 8), (7, .blank), (8, .so 5 1 8 6 9)] := by decide
example : DerivesRight (fun _ => True) (fun _ : Nat => True) wide := by simp [DerivesRight, wide, fct]

/-- 1 from two facts; used for 3, and for 4 with what follows from two other facts. -/
def twice : Cause Nat Nat :=
  .both 9 (.both 3 (.both 1 (fct 1) (fct 2)) (fct 3)) (.both 4 (.both 2 (fct 4) (fct 5)) (.both 1 (fct 1) (fct 2)))

/-- 1 from two facts; used for 3, and for 6, from which 4 follows. -/
def again : Cause Nat Nat :=
  .both 9 (.both 3 (.both 1 (fct 1) (fct 2)) (fct 3)) (.both 4 (.both 6 (.both 1 (fct 1) (fct 2)) (fct 4)) (fct 5))

end Report

/-- C100 fails if the second of two incompatibilities has been explained before: where the number of its line should stand is the text of that line. -/
theorem report_text_violated :
    report (fun _ => false) twice = [(0, .because 1 2 1), (1, .andFact 3 3), (2, .blank), (3, .because 4 5 2), (4, .andText 1 (.because 1 2 1) 4),
      (5, .blank), (6, .so 3 1 4 4 9)] := by decide

/-- C100 fails if what an incompatibility with a fact was derived from has been explained before: it is explained again, its first line is lost, so
that the explanation begins with the line 1, whose "And" has nothing above it; and two lines have the same number. -/
theorem report_again_violated :
    report (fun _ => false) again = [(1, .andFact 3 3), (2, .blank), (3, .because 1 2 1), (3, .andFacts 4 5 4), (4, .blank), (5, .so 3 1 4 3 9)] ∧
    (∀ tk tf, ¬ LineReadable tk tf (report (fun _ => false) again) 0 (.andFact 3 3)) ∧
    ¬ Refers (report (fun _ => false) again) 5 3 4 := by
  refine ⟨by decide, ?_, ?_⟩
  · rintro tk tf ⟨p, ⟨j, v, hj, _⟩, _⟩
    omega
  · rintro ⟨_, h⟩
    exact absurd (h 2 (3, .because 1 2 1) (by omega) (by decide) rfl) (by decide)

end Pkm
