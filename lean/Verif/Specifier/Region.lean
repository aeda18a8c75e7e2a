import Verif.Specifier.Union
set_option linter.unusedVariables false
/-
Intersections of regions are regions.
-/
namespace Pkm
open Spec
namespace VSpec

def LoIn (r a : VSpec) : Prop :=
  ∀ x, (blockMin a).1 = some x → ∃ y, (blockMin r).1 = some y ∧
    (x.lt y = true ∨ (x.eqv y = true ∧ ((blockMin r).2 = true → (blockMin a).2 = true)))

def HiIn (r a : VSpec) : Prop :=
  ∀ x, (blockMax a).1 = some x → ∃ y, (blockMax r).1 = some y ∧
    (y.lt x = true ∨ (x.eqv y = true ∧ ((blockMax r).2 = true → (blockMax a).2 = true)))

/-- The ends of `r` lie inside those of `a`. -/
def Within (r a : VSpec) : Prop := LoIn r a ∧ HiIn r a

theorem within_refl (a : VSpec) : Within a a :=
  ⟨fun x hx => ⟨x, hx, Or.inr ⟨SV.eqv_stage.refl x, id⟩⟩,
   fun x hx => ⟨x, hx, Or.inr ⟨SV.eqv_stage.refl x, id⟩⟩⟩

theorem within_all (a : VSpec) : Within a .all := by
  constructor <;> intro x hx <;> simp [blockMin, blockMax] at hx

theorem apart_mono (r a b : VSpec) (h : Within r a) (hap : Apart a b) : Apart r b := by
  rcases hap with ⟨x, y, hx, hy, hxy⟩ | ⟨x, y, hx, hy, hxy⟩
  · obtain ⟨z, hz, hzx⟩ := h.2 x hx
    refine Or.inl ⟨z, y, hz, hy, ?_⟩
    rcases hzx with h1 | ⟨h1, h1'⟩ <;> rcases hxy with h2 | ⟨h2, h2', h2''⟩
    · exact Or.inl (SV.eqv_stage.ltTrans _ _ _ h1 h2)
    · exact Or.inl (lt_of_lt_eqv h1 h2)
    · exact Or.inl (lt_of_eqv_lt (SV.eqv_stage.symm _ _ h1) h2)
    · refine Or.inr ⟨SV.eqv_stage.trans _ _ _ (SV.eqv_stage.symm _ _ h1) h2, ?_, h2''⟩
      cases h3 : (blockMax r).2 with
      | false => rfl
      | true => rw [h1' h3] at h2'; simp at h2'
  · obtain ⟨z, hz, hzx⟩ := h.1 y hy
    refine Or.inr ⟨x, z, hx, hz, ?_⟩
    rcases hzx with h1 | ⟨h1, h1'⟩ <;> rcases hxy with h2 | ⟨h2, h2', h2''⟩
    · exact Or.inl (SV.eqv_stage.ltTrans _ _ _ h2 h1)
    · exact Or.inl (lt_of_eqv_lt h2 h1)
    · exact Or.inl (lt_of_lt_eqv h2 h1)
    · refine Or.inr ⟨SV.eqv_stage.trans _ _ _ h2 h1, h2', ?_⟩
      cases h3 : (blockMin r).2 with
      | false => rfl
      | true => rw [h1' h3] at h2''; simp at h2''

theorem createRange_ends (m M : Option SV) (i I : Bool) (r : VSpec)
    (h : createRange m M i I = .ok r) (hr : r ≠ .none) :
    (∀ x, m = some x → (blockMin r).1 = some x ∧ (blockMin r).2 = i) ∧
    (∀ x, M = some x → ∃ y, (blockMax r).1 = some y ∧ x.eqv y = true ∧ (blockMax r).2 = I) := by
  unfold createRange at h
  simp only at h
  split at h
  · simp at h
  · rename_i h0
    split at h
    · rename_i h1
      simp at h1
      simp [h1.1, h1.2]
    · rename_i h1
      split at h
      · rename_i h2
        cases m with
        | none => cases M <;> simp [optEq] at h2 h1
        | some a =>
          cases M with
          | none => simp [optEq] at h2
          | some b =>
            simp only at h
            split at h
            · simp at h; exact absurd h.symm hr
            · rename_i h3
              simp at h h3
              subst h
              obtain ⟨rfl, rfl⟩ := h3
              refine ⟨?_, ?_⟩
              · intro x hx; simp at hx; subst hx; simp [blockMin]
              · intro x hx; simp at hx; subst hx
                exact ⟨a, rfl, SV.eqv_stage.symm _ _ (by simpa [optEq] using h2), rfl⟩
      · unfold mkRange at h
        split at h
        · simp at h
        · have : r = .range m M i I := by
            split at h
            · split at h
              · simp at h; exact h.symm
              · simp at h
            · simp at h; exact h.symm
          subst this
          refine ⟨?_, ?_⟩
          · intro x hx; exact ⟨hx, rfl⟩
          · intro x hx; exact ⟨x, hx, SV.eqv_stage.refl x, rfl⟩

theorem rangeInterCore_within (m1 M1 : Option SV) (i1 I1 : Bool) (m2 M2 : Option SV) (i2 I2 : Bool)
    (h1 : RangeOk m1 M1 i1 I1) (h2 : RangeOk m2 M2 i2 I2) (hle : MinLe m1 m2) (r : VSpec)
    (h : rangeInterCore m1 M1 i1 I1 m2 M2 i2 I2 = .ok r) (hr : r ≠ .none) :
    Within r (.range m1 M1 i1 I1) ∧ Within r (.range m2 M2 i2 I2) := by
  unfold rangeInterCore at h
  extract_lets overlap imin imax uo at h
  by_cases hov : overlap = true
  · rw [if_pos hov] at h
    have hlow1 : ∀ (x y : SV), m1 = some x → m2 = some y →
        (x.lt y = true ∨ (x.eqv y = true ∧ (imin = true → i1 = true))) := by
      intro x y hx hy
      subst hx; subst hy
      obtain ⟨b, hb, hxb⟩ := hle x rfl
      simp at hb; subst hb
      rcases hxb with h | h
      · exact Or.inl h
      · refine Or.inr ⟨h, ?_⟩
        simp only [imin, optEq, h]; simp; exact fun h _ => h
    have hlow2 : imin = true → i2 = true := by
      simp only [imin]; split
      · simp
      · exact id
    have low : ∀ M I, createRange m2 M imin I = .ok r →
        LoIn r (.range m1 M1 i1 I1) ∧ LoIn r (.range m2 M2 i2 I2) := by
      intro M I hc
      obtain ⟨e1, _⟩ := createRange_ends _ _ _ _ _ hc hr
      constructor
      · intro x hx
        simp only [blockMin] at hx
        obtain ⟨y, hy, _⟩ := hle x hx
        refine ⟨y, (e1 y hy).1, ?_⟩
        rw [(e1 y hy).2]
        exact hlow1 x y hx hy
      · intro x hx
        simp only [blockMin] at hx
        refine ⟨x, (e1 x hx).1, Or.inr ⟨SV.eqv_stage.refl x, ?_⟩⟩
        rw [(e1 x hx).2]; exact hlow2
    by_cases huse : uo = true
    · rw [if_pos huse] at h
      obtain ⟨_, e2⟩ := createRange_ends _ _ _ _ _ h hr
      obtain ⟨l1, l2⟩ := low _ _ h
      refine ⟨⟨l1, ?_⟩, l2, ?_⟩
      · intro x hx
        simp only [blockMax] at hx
        subst hx
        cases M2 with
        | none => simp [uo] at huse
        | some b =>
          obtain ⟨y, hy, hby, hf⟩ := e2 b rfl
          exact ⟨y, hy, Or.inl (lt_of_eqv_lt (SV.eqv_stage.symm _ _ hby) huse)⟩
      · intro x hx
        obtain ⟨y, hy, hby, hf⟩ := e2 x hx
        exact ⟨y, hy, Or.inr ⟨hby, by rw [hf]; exact id⟩⟩
    · rw [if_neg huse] at h
      obtain ⟨_, e2⟩ := createRange_ends _ _ _ _ _ h hr
      obtain ⟨l1, l2⟩ := low _ _ h
      refine ⟨⟨l1, ?_⟩, l2, ?_⟩
      · intro x hx
        obtain ⟨y, hy, hby, hf⟩ := e2 x hx
        refine ⟨y, hy, Or.inr ⟨hby, ?_⟩⟩
        rw [hf]; simp only [imax, blockMax]
        split
        · simp; exact fun h _ => h
        · exact id
      · intro x hx
        simp only [blockMax] at hx
        subst hx
        cases M1 with
        | none => simp [uo] at huse
        | some a =>
          obtain ⟨y, hy, hay, hf⟩ := e2 a rfl
          refine ⟨y, hy, ?_⟩
          rcases plain_tri a x (h1.plainMax a rfl) (h2.plainMax x rfl) with h | h | h
          · exact Or.inl (lt_of_eqv_lt (SV.eqv_stage.symm _ _ hay) h)
          · refine Or.inr ⟨SV.eqv_stage.trans _ _ _ (SV.eqv_stage.symm _ _ h) hay, ?_⟩
            rw [hf]; simp only [imax, optEq, h, blockMax]; simp
          · exact absurd h huse
  · rw [if_neg hov] at h
    cases M1 with
    | none => simp [overlap] at hov
    | some a =>
      cases m2 with
      | none => simp [overlap] at hov
      | some b =>
        by_cases hc : (I1 && i2 && optEq (some a) (some b)) = true
        · simp only [hc, if_true] at h
          simp at h
          subst h
          simp [optEq] at hc
          obtain ⟨⟨rfl, rfl⟩, hab⟩ := hc
          refine ⟨⟨?_, ?_⟩, ?_, ?_⟩
          · intro x hx
            exact ⟨a, rfl, Or.inl (h1.ordered x a hx rfl)⟩
          · intro x hx
            simp [blockMax] at hx; subst hx
            exact ⟨a, rfl, Or.inr ⟨SV.eqv_stage.refl a, fun _ => rfl⟩⟩
          · intro x hx
            simp [blockMin] at hx; subst hx
            exact ⟨a, rfl, Or.inr ⟨SV.eqv_stage.symm _ _ hab, fun _ => rfl⟩⟩
          · intro x hx
            exact ⟨a, rfl, Or.inl (lt_of_eqv_lt hab (h2.ordered b x rfl hx))⟩
        · simp only [hc] at h
          simp at h
          exact absurd h.symm hr

theorem rangeAllows_within (m M : Option SV) (i I : Bool) (hok : RangeOk m M i I) (s : SV)
    (h : rangeAllows m M i I (.std s) = true) :
    Within (.vmatch (.std s) true) (.range m M i I) := by
  unfold rangeAllows at h
  by_cases h1 : (i && endEq m (Ver.std s) || I && endEq M (Ver.std s)) = true
  · simp at h1
    rcases h1 with ⟨rfl, h1⟩ | ⟨rfl, h1⟩
    · cases m with
      | none => simp [endEq] at h1
      | some a =>
        simp [endEq, Ver.eqv] at h1
        refine ⟨fun x hx => ⟨s, rfl, Or.inr ⟨?_, fun _ => rfl⟩⟩, fun x hx => ⟨s, rfl, Or.inl ?_⟩⟩
        · simp [blockMin] at hx; subst hx; exact h1
        · exact lt_of_eqv_lt (SV.eqv_stage.symm _ _ h1) (hok.ordered a x rfl hx)
    · cases M with
      | none => simp [endEq] at h1
      | some a =>
        simp [endEq, Ver.eqv] at h1
        refine ⟨fun x hx => ⟨s, rfl, Or.inl ?_⟩, fun x hx => ⟨s, rfl, Or.inr ⟨?_, fun _ => rfl⟩⟩⟩
        · exact lt_of_lt_eqv (hok.ordered x a hx rfl) h1
        · simp [blockMax] at hx; subst hx; exact h1
  · rw [if_neg h1] at h
    have key : ∀ (c p q : Bool), (if c = true then false else (p && q)) = true → p = true ∧ q = true := by
      decide
    have h := key _ _ _ h
    · skip
      refine ⟨fun x hx => ⟨s, rfl, Or.inl ?_⟩, fun x hx => ⟨s, rfl, Or.inl ?_⟩⟩
      · simp only [blockMin] at hx; subst hx; exact h.1
      · simp only [blockMax] at hx; subst hx; exact h.2

theorem block_within (n : Nat) (a b r : VSpec) (ha : Block a) (hb : Block b)
    (h : interF (n + 2) a b = .ok r) (hr : r ≠ .none) : Within r a ∧ Within r b := by
  have mr : ∀ k s m M i I, RangeOk m M i I →
      interF (k + 1) (.vmatch (.std s) true) (.range m M i I) = .ok r →
      Within r (.vmatch (.std s) true) ∧ Within r (.range m M i I) := by
    intro k s m M i I hok h
    simp [interF, Ver.isStd] at h
    split at h
    · rename_i h1
      simp at h; subst h
      exact ⟨within_refl _, rangeAllows_within _ _ _ _ hok s h1⟩
    · simp at h; exact absurd h.symm hr
  cases ha with
  | all =>
    simp [interF] at h; subst h
    exact ⟨within_all _, within_refl _⟩
  | one s hs =>
    cases hb with
    | all => simp [interF] at h; subst h; exact ⟨within_refl _, within_all _⟩
    | one t ht =>
      have l1 : s.isLocal = false := by simp [SV.isLocal, hs.2.2]
      have l2 : t.isLocal = false := by simp [SV.isLocal, ht.2.2]
      cases he : s.eqv t with
      | true =>
        simp [interF, eqv, Ver.eqv, he] at h; subst h
        refine ⟨within_refl _, fun x hx => ⟨s, rfl, Or.inr ⟨?_, id⟩⟩, fun x hx => ⟨s, rfl, Or.inr ⟨?_, id⟩⟩⟩
        · simp [blockMin] at hx; subst hx; exact SV.eqv_stage.symm _ _ he
        · simp [blockMax] at hx; subst hx; exact SV.eqv_stage.symm _ _ he
      | false =>
        simp [interF, eqv, Ver.eqv, he, Ver.isLocal, l1, l2] at h
        exact absurd h.symm hr
    | range m M i I hok => exact mr _ _ _ _ _ _ hok h
  | range m M i I hok =>
    cases hb with
    | all => simp [interF] at h; subst h; exact ⟨within_refl _, within_all _⟩
    | one t ht =>
      have := mr n t m M i I hok h
      exact ⟨this.2, this.1⟩
    | range m' M' i' I' hok' =>
      cases he : eqv (.range m M i I) (.range m' M' i' I') with
      | true =>
        simp [interF, he] at h; subst h
        refine ⟨within_refl _, ?_⟩
        simp [eqv, rangeEq] at he
        obtain ⟨⟨⟨rfl, rfl⟩, h1⟩, h2⟩ := he
        rw [optEq_iff] at h1 h2
        constructor
        · intro x hx
          simp only [blockMin] at hx; subst hx
          rcases h1 with ⟨_, h⟩ | ⟨y, z, rfl, hz, hyz⟩
          · simp at h
          · simp at hz; subst hz
            exact ⟨y, rfl, Or.inr ⟨SV.eqv_stage.symm _ _ hyz, id⟩⟩
        · intro x hx
          simp only [blockMax] at hx; subst hx
          rcases h2 with ⟨_, h⟩ | ⟨y, z, rfl, hz, hyz⟩
          · simp at h
          · simp at hz; subst hz
            exact ⟨y, rfl, Or.inr ⟨SV.eqv_stage.symm _ _ hyz, id⟩⟩
      | false =>
        simp [interF, he, rangeInter] at h
        split at h
        · rename_i hl
          have := rangeInterCore_within _ _ _ _ _ _ _ _ hok' hok
            (minLe_of_rangeLt _ _ _ _ _ _ _ _ hl) r h hr
          exact ⟨this.2, this.1⟩
        · rename_i hl
          exact rangeInterCore_within _ _ _ _ _ _ _ _ hok hok'
            (minLe_of_not_rangeLt _ _ _ _ _ _ _ _ hok'.plainMin hok.plainMin (by simpa using hl)) r h hr

/-- The accumulating loop of an intersection, when every partial result is a region inside its
segment. -/
theorem interSegs_spec (n L : Nat) (g : VSpec → Except Err VSpec) (b : VSpec)
    (P : VSpec → Prop) (hn : L + 5 ≤ n) :
    ∀ (segs : List VSpec) (acc : VSpec), Region acc → (∀ x, x ∈ pieces acc → P x) →
    (∀ s, s ∈ segs → Block s) → segs.Pairwise Apart →
    (∀ x, x ∈ pieces acc → ∀ s, s ∈ segs → Apart x s) →
    (∀ s, s ∈ segs → ∃ i, g s = .ok i ∧ Region i ∧ (pieces i).length ≤ L ∧
      (∀ x, x ∈ pieces i → Within x s ∧ P x) ∧
      AllowsExactly i (fun w => s.allows (.std w) = true ∧ b.allows (.std w) = true)) →
    ∃ r, interSegs n g acc segs = .ok r ∧ Region r ∧ (∀ x, x ∈ pieces r → P x) ∧
      (pieces r).length ≤ (pieces acc).length + L * segs.length ∧
      AllowsExactly r (fun w => acc.allows (.std w) = true ∨
        ((∃ s, s ∈ segs ∧ s.allows (.std w) = true) ∧ b.allows (.std w) = true)) := by
  intro segs
  induction segs with
  | nil =>
    intro acc hacc hP hb hp hap hg
    exact ⟨acc, rfl, hacc, hP, by simp, fun w hw => by simp⟩
  | cons s ss ih =>
    intro acc hacc hP hb hp hap hg
    obtain ⟨i, hi, hri, hlen, hw, hex⟩ := hg s (by simp)
    have hai : ∀ x, x ∈ pieces acc → ∀ y, y ∈ pieces i → Apart x y := by
      intro x hx y hy
      exact apart_symm _ _ (apart_mono y s x (hw y hy).1 (apart_symm _ _ (hap x hx s (by simp))))
    obtain ⟨u, hu, hru, hpu⟩ := region_union n acc i hacc hri hai (by omega)
    rw [List.pairwise_cons] at hp
    obtain ⟨r, hr, hrr, hPr, hlr, hxr⟩ := ih u hru
      (by
        intro x hx
        rcases List.mem_append.mp (hpu.mem_iff.mp hx) with h | h
        · exact hP x h
        · exact (hw x h).2)
      (fun t ht => hb t (by simp [ht])) hp.2
      (by
        intro x hx t ht
        rcases List.mem_append.mp (hpu.mem_iff.mp hx) with h | h
        · exact hap x h t (by simp [ht])
        · exact apart_mono x s t (hw x h).1 (hp.1 t ht))
      (fun t ht => hg t (by simp [ht]))
    refine ⟨r, ?_, hrr, hPr, ?_, fun w hw' => ?_⟩
    · simp only [interSegs, hi]
      show (unionF n acc i >>= fun r => interSegs n g r ss) = _
      rw [hu]; exact hr
    · have := hpu.length_eq
      simp at this
      simp only [List.length_cons, Nat.mul_add, Nat.mul_one]
      omega
    · refine (hxr w hw').trans ?_
      have e1 : u.allows (.std w) = true ↔
          acc.allows (.std w) = true ∨ i.allows (.std w) = true := by
        rw [region_allows u hru, region_allows acc hacc, region_allows i hri]
        simp only [hpu.mem_iff, List.mem_append, or_and_right, exists_or]
      dsimp only
      rw [e1, hex w hw']
      simp only [List.mem_cons, exists_eq_or_imp]
      constructor
      · rintro ((h | h) | h)
        · exact Or.inl h
        · exact Or.inr ⟨Or.inl h.1, h.2⟩
        · exact Or.inr ⟨Or.inr h.1, h.2⟩
      · rintro (h | ⟨h | h, h'⟩)
        · exact Or.inl (Or.inl h)
        · exact Or.inl (Or.inr ⟨h, h'⟩)
        · exact Or.inr ⟨h, h'⟩

/-- Block with block, as a region. -/
theorem block_block_region (n : Nat) (a b : VSpec) (ha : Block a) (hb : Block b) :
    ∃ r, interF (n + 2) a b = .ok r ∧ Region r ∧ (pieces r).length ≤ 1 ∧
      (∀ x, x ∈ pieces r → Within x a ∧ Within x b) ∧
      AllowsExactly r (fun w => a.allows (.std w) = true ∧ b.allows (.std w) = true) := by
  obtain ⟨r, hr, hbn, hex⟩ := block_inter n a b (Or.inr ha) (Or.inr hb)
  rcases hbn with rfl | hbn
  · exact ⟨.none, hr, .none, by simp [pieces], by simp [pieces], hex⟩
  · refine ⟨r, hr, .block r hbn, by rw [pieces_block hbn]; simp, ?_, hex⟩
    rw [pieces_block hbn]
    intro x hx
    simp at hx; subst hx
    exact block_within n a b x ha hb hr (Block.isProper hbn)

/-- Union with block. -/
theorem union_block_region (n : Nat) (segs : List VSpec) (b : VSpec) (h2 : 2 ≤ segs.length)
    (hbs : ∀ s, s ∈ segs → Block s) (hp : segs.Pairwise Apart) (hb : Block b) (hn : 7 ≤ n) :
    ∃ r, interF n (.union segs) b = .ok r ∧ Region r ∧ (pieces r).length ≤ segs.length ∧
      (∀ x, x ∈ pieces r → (∃ s, s ∈ segs ∧ Within x s) ∧ Within x b) ∧
      AllowsExactly r (fun w => (VSpec.union segs).allows (.std w) = true ∧
        b.allows (.std w) = true) := by
  obtain ⟨n', rfl⟩ : ∃ n', n = n' + 3 := ⟨n - 3, by omega⟩
  by_cases hall : b = .all
  · subst hall
    refine ⟨.union segs, by simp [interF], .union segs h2 hbs hp, by simp [pieces], ?_,
      fun w hw => by simp [allows]⟩
    intro x hx
    exact ⟨⟨x, hx, within_refl x⟩, within_all x⟩
  obtain ⟨r, hr, hreg, hP, hlen, hex⟩ := interSegs_spec (n' + 2) 1 (fun s => interF (n' + 2) s b) b
    (fun x => (∃ s, s ∈ segs ∧ Within x s) ∧ Within x b) (by omega) segs .none .none
    (by simp [pieces]) hbs hp (by simp [pieces])
    (by
      intro s hs
      obtain ⟨i, hi, h1, h2, h3, h4⟩ := block_block_region n' s b (hbs s hs) hb
      exact ⟨i, hi, h1, h2, fun x hx => ⟨(h3 x hx).1, ⟨s, hs, (h3 x hx).1⟩, (h3 x hx).2⟩, h4⟩)
  refine ⟨r, ?_, hreg, by simpa [pieces] using hlen, hP, fun w hw => ?_⟩
  · rw [← hr]
    cases hb with
    | all => exact absurd rfl hall
    | range => rfl
    | one => rfl
  · refine (hex w hw).trans ?_
    dsimp only; rw [union_allows]; simp [allows]

/-- Intersection of regions. -/
theorem region_inter (n : Nat) (a b : VSpec) (ha : Region a) (hb : Region b)
    (hn : (pieces b).length + 10 ≤ n) :
    ∃ r, interF n a b = .ok r ∧ Region r ∧
      (pieces r).length ≤ (pieces a).length * (pieces b).length ∧
      AllowsExactly r (fun w => a.allows (.std w) = true ∧ b.allows (.std w) = true) := by
  obtain ⟨n', rfl⟩ : ∃ n', n = n' + 3 := ⟨n - 3, by omega⟩
  cases ha with
  | none =>
    exact ⟨.none, by simp [interF], .none, by simp [pieces], fun w hw => by simp [allows]⟩
  | block _ ha =>
    cases hb with
    | none =>
      refine ⟨.none, ?_, .none, by simp [pieces], fun w hw => by simp [allows]⟩
      cases ha <;> simp [interF]
    | block _ hb =>
      obtain ⟨r, h1, h2, h3, _, h5⟩ := block_block_region (n' + 1) a b ha hb
      exact ⟨r, h1, h2, by rw [pieces_block ha, pieces_block hb]; simpa using h3, h5⟩
    | union segs h2 hbs hp =>
      obtain ⟨r, hr, hreg, hlen, _, hex⟩ := union_block_region (n' + 2) segs a h2 hbs hp ha (by omega)
      by_cases hall : a = .all
      · subst hall
        exact ⟨.union segs, by simp [interF], .union segs h2 hbs hp, by simp [pieces],
          fun w hw => by simp [allows]⟩
      · refine ⟨r, ?_, hreg, by rw [pieces_block ha]; simpa [pieces] using hlen,
          fun w hw => by rw [hex w hw]; exact and_comm⟩
        rw [← hr]
        cases ha with
        | all => exact absurd rfl hall
        | range => rfl
        | one => rfl
  | union segs h2 hbs hp =>
    cases hb with
    | none => exact ⟨.none, by simp [interF], .none, by simp [pieces], fun w hw => by simp [allows]⟩
    | block _ hb =>
      obtain ⟨r, hr, hreg, hlen, _, hex⟩ := union_block_region (n' + 3) segs b h2 hbs hp hb (by omega)
      exact ⟨r, hr, hreg, by rw [pieces_block hb]; simpa [pieces] using hlen, hex⟩
    | union segs' h2' hbs' hp' =>
      simp only [pieces] at hn
      obtain ⟨r, hr, hreg, _, hlen, hex⟩ := interSegs_spec (n' + 2) segs'.length
        (fun s => interF (n' + 2) s (.union segs')) (.union segs')
        (fun _ => True) (by omega) segs .none .none
        (by simp) hbs hp (by simp [pieces])
        (by
          intro s hs
          have hsall : s ≠ .all := by
            intro e; subst e
            cases segs with
            | nil => simp at h2
            | cons x xs =>
              cases xs with
              | nil => simp at h2
              | cons y ys =>
                rw [List.pairwise_cons] at hp
                rcases List.mem_cons.mp hs with h | h
                · subst h; exact not_apart_all y (hp.1 y (by simp))
                · exact not_apart_all x (apart_symm _ _ (hp.1 _ h))
          obtain ⟨i, hi, h1, h2, h3, h4⟩ :=
            union_block_region (n' + 1) segs' s h2' hbs' hp' (hbs s hs) (by omega)
          refine ⟨i, ?_, h1, h2, fun x hx => ⟨(h3 x hx).2, trivial⟩,
            fun w hw => by rw [h4 w hw]; exact and_comm⟩
          show interF (n' + 2) s (.union segs') = _
          rw [← hi]
          cases hbs s hs with
          | all => exact absurd rfl hsall
          | range => rfl
          | one => rfl)
      refine ⟨r, by rw [← hr]; rfl, hreg, ?_, fun w hw => ?_⟩
      · simpa [pieces, Nat.mul_comm] using hlen
      · refine (hex w hw).trans ?_
        dsimp only; rw [union_allows segs]; simp [allows]

end VSpec
end Pkm
