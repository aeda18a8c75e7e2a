import Verif.Http.Cache
set_option linter.unusedVariables false
set_option linter.unusedSimpArgs false
/-
C31: stored resources are complete, also after crashes. C58: hash checks are about the stored data.
-/
namespace Pkm
open Http

namespace Spec

/-- Nothing is stored yet. -/
def noFiles : CacheState := ⟨⟨none, none⟩, fun _ => none⟩

/-- Histories: the states that sequences of operations with responses `Sent` lead to, and the resource objects
that are up to date there, which means that they were made by the last `save` or after it.
`anyObject`: hash values are also asked for by objects that are not up to date. -/
inductive CacheHistory (H : Text → Bytes → Text) (Sent : Resp → Prop) (anyObject : Prop) :
    CacheState → List Nat → Prop where
  | start : CacheHistory H Sent anyObject noFiles []
  /-- a fetch that is served from the cache makes a new object -/
  | open {s vs} (o : Nat) : CacheHistory H Sent anyObject s vs → s.files.exist = true → s.mem o = none →
      CacheHistory H Sent anyObject s (o :: vs)
  | save {s vs} (o : Nat) (r : Resp) (t : Option Info) : CacheHistory H Sent anyObject s vs → Sent r →
      CacheHistory H Sent anyObject (s.runSteps (saveSteps o r t)) [o]
  /-- an exception during `save` at step `k`, then the files are deleted -/
  | saveFails {s vs} (o : Nat) (r : Resp) (t : Option Info) (k : Nat) : CacheHistory H Sent anyObject s vs → Sent r →
      CacheHistory H Sent anyObject ((s.runSteps ((saveSteps o r t).take k)).runSteps (deleteSteps o)) []
  | delete {s vs} (o : Nat) : CacheHistory H Sent anyObject s vs →
      CacheHistory H Sent anyObject (s.runSteps (deleteSteps o)) []
  | hash {s vs} (o : Nat) (f : Text) (t : Option Info) : CacheHistory H Sent anyObject s vs → (o ∈ vs ∨ anyObject) →
      CacheHistory H Sent anyObject (s.runSteps (s.hashOf H o f t).2) vs
  /-- an exception during `is_hash_valid` at step `k` -/
  | hashFails {s vs} (o : Nat) (f : Text) (t : Option Info) (k : Nat) : CacheHistory H Sent anyObject s vs →
      (o ∈ vs ∨ anyObject) → CacheHistory H Sent anyObject (s.runSteps ((s.hashOf H o f t).2.take k)) vs
  /-- crashes of the process during the operations -/
  | crashSave {s vs} (o : Nat) (r : Resp) (t : Option Info) (k : Nat) : CacheHistory H Sent anyObject s vs → Sent r →
      CacheHistory H Sent anyObject (s.runSteps ((saveSteps o r t).take k)).crash []
  | crashSaveFails {s vs} (o : Nat) (r : Resp) (t : Option Info) (k j : Nat) : CacheHistory H Sent anyObject s vs →
      Sent r → CacheHistory H Sent anyObject
        ((s.runSteps ((saveSteps o r t).take k)).runSteps ((deleteSteps o).take j)).crash []
  | crashDelete {s vs} (o : Nat) (k : Nat) : CacheHistory H Sent anyObject s vs →
      CacheHistory H Sent anyObject (s.runSteps ((deleteSteps o).take k)).crash []
  | crashHash {s vs} (o : Nat) (f : Text) (t : Option Info) (k : Nat) : CacheHistory H Sent anyObject s vs →
      (o ∈ vs ∨ anyObject) → CacheHistory H Sent anyObject (s.runSteps ((s.hashOf H o f t).2.take k)).crash []

/-- The info (if it can be read) tells what the response said, as far as it is complete, and the right hash
values of the data. -/
def InfoOf (H : Text → Bytes → Text) (r : Resp) (i : Option Info) : Prop :=
  ∀ i' ∈ i, (i'.etag = none ∨ i'.etag = r.info.etag) ∧ (i'.time = none ∨ i'.time = r.info.time) ∧
    ∀ p ∈ i'.hash, p.2 = H p.1 r.received

end Spec

namespace Http

variable {H : Text → Bytes → Text} {Sent : Resp → Prop}

/-- The invariant for histories with up to date objects. -/
def CInv (H : Text → Bytes → Text) (Sent : Resp → Prop) (s : CacheState) (vs : List Nat) : Prop :=
  (∀ i, s.files.info = some i → ∃ r, Sent r ∧ s.files.data = some r.received ∧ Spec.InfoOf H r i ∧
    ∀ o ∈ vs, ∀ j, s.mem o = some j → Spec.InfoOf H r (some j)) ∧
  (vs ≠ [] → s.files.info.isSome = true)

theorem runSteps_append (s : CacheState) (a b : List CStep) : s.runSteps (a ++ b) = (s.runSteps a).runSteps b := by
  simp [CacheState.runSteps]

theorem run_append_data (s : CacheState) (d : Bytes) (l : Bytes) (h : s.files.data = some d) :
    (s.runSteps (l.map .appendData)).files.data = some (d ++ l) ∧
    (s.runSteps (l.map .appendData)).files.info = s.files.info ∧ (s.runSteps (l.map .appendData)).mem = s.mem := by
  induction l generalizing s d with
  | nil => simp [CacheState.runSteps, h]
  | cons b l ih =>
    have := ih (s.apply (.appendData b)) (d ++ [b]) (by simp [CacheState.apply, h])
    simp only [List.map_cons, CacheState.runSteps, List.foldl_cons] at this ⊢
    obtain ⟨h1, h2, h3⟩ := this
    exact ⟨by rw [h1]; simp, by rw [h2]; rfl, by rw [h3]; rfl⟩

theorem run_no_info (s : CacheState) (steps : List CStep) (h : s.files.info = none)
    (hs : ∀ c ∈ steps, ∀ t i, c ≠ .openInfo t ∧ c ≠ .writeInfo i) : (s.runSteps steps).files.info = none := by
  induction steps generalizing s with
  | nil => exact h
  | cons c steps ih =>
    simp only [CacheState.runSteps, List.foldl_cons]
    apply ih
    · cases c with
      | openInfo t => exact absurd rfl (hs _ List.mem_cons_self t ⟨none, none, []⟩).1
      | writeInfo i => exact absurd rfl (hs _ List.mem_cons_self none i).2
      | unlinkInfo => rfl
      | _ => exact h
    · exact fun c hc => hs c (List.mem_cons_of_mem _ hc)

theorem cinv_none (s : CacheState) (h : s.files.info = none) : CInv H Sent s [] :=
  ⟨fun i hi => (by rw [h] at hi; cases hi), fun hn => absurd rfl hn⟩

/-- The first part of `save`: up to the opening of the info file. -/
def saveHead (o : Nat) (r : Resp) : List CStep :=
  [.unlinkInfo, .openData] ++ r.received.map .appendData ++ [.remember o r.info]

theorem saveSteps_eq (o : Nat) (r : Resp) (t : Option Info) : saveSteps o r t = saveHead o r ++ writeInfoSteps r.info t := rfl

theorem saveHead_state (s : CacheState) (o : Nat) (r : Resp) :
    (s.runSteps (saveHead o r)).files = ⟨some r.received, none⟩ ∧
    (s.runSteps (saveHead o r)).mem = fun n => if n = o then some r.info else s.mem n := by
  have h := run_append_data (s.runSteps [.unlinkInfo, .openData]) [] r.received rfl
  unfold saveHead
  rw [runSteps_append, runSteps_append]
  generalize (s.runSteps [.unlinkInfo, .openData]).runSteps (r.received.map .appendData) = s2 at *
  obtain ⟨h1, h2, h3⟩ := h
  refine ⟨?_, ?_⟩
  · show s2.files = _
    have h2' : s2.files.info = none := h2
    cases hf : s2.files with
    | mk d i => rw [hf] at h1 h2'; simp_all
  · show (fun n => if n = o then some r.info else s2.mem n) = _
    rw [h3]; rfl

theorem saveHead_prefix (s : CacheState) (o : Nat) (r : Resp) (k : Nat) (hk : 0 < k) :
    (s.runSteps ((saveHead o r).take k)).files.info = none := by
  obtain ⟨k, rfl⟩ : ∃ j, k = j + 1 := ⟨k - 1, by omega⟩
  show ((s.apply .unlinkInfo).runSteps (List.take k ([.openData] ++ r.received.map .appendData ++ [.remember o r.info]))).files.info = none
  apply run_no_info
  · rfl
  · intro c hc t i
    have := List.mem_of_mem_take hc
    simp at this
    rcases this with h | ⟨b, _, h⟩ | h <;> subst h <;> simp

theorem within_spec {a b : Info} (h : a.within b = true) :
    (a.etag = none ∨ a.etag = b.etag) ∧ (a.time = none ∨ a.time = b.time) ∧ ∀ p ∈ a.hash, p ∈ b.hash := by
  simp only [Info.within, Bool.and_eq_true, Bool.or_eq_true, beq_iff_eq, List.all_eq_true] at h
  refine ⟨h.1.1, h.1.2, fun p hp => ?_⟩
  exact Dict.get_mem _ _ _ (h.2 p hp)

theorem infoOf_within {r : Resp} {a i : Info} (h : a.within i = true) (hi : Spec.InfoOf H r (some i)) :
    Spec.InfoOf H r (some a) := by
  intro x hx
  simp at hx; subst hx
  obtain ⟨h1, h2, h3⟩ := within_spec h
  obtain ⟨g1, g2, g3⟩ := hi i rfl
  refine ⟨?_, ?_, fun p hp => g3 p (h3 p hp)⟩
  · rcases h1 with h1 | h1
    · exact .inl h1
    · rw [h1]; exact g1
  · rcases h2 with h2 | h2
    · exact .inl h2
    · rw [h2]; exact g2

theorem infoOf_none (r : Resp) : Spec.InfoOf H r none := by intro x hx; simp at hx

theorem torn_infoOf {r : Resp} {i : Info} (t : Option Info) (hi : Spec.InfoOf H r (some i)) :
    Spec.InfoOf H r (match t with | some a => if a.within i then some a else none | none => none) := by
  cases t with
  | none => exact infoOf_none r
  | some a =>
    simp only
    split
    · exact infoOf_within ‹_› hi
    · exact infoOf_none r

theorem info_self (r : Resp) : Spec.InfoOf H r (some r.info) := by
  intro x hx
  simp at hx; subst hx
  exact ⟨.inr rfl, .inr rfl, fun p hp => by simp [Resp.info] at hp⟩

/-- Every state within `save`. -/
theorem cinv_save_prefix (s : CacheState) (vs : List Nat) (o : Nat) (r : Resp) (t : Option Info) (k : Nat)
    (h : CInv H Sent s vs) (hr : Sent r) : CInv H Sent (s.runSteps ((saveSteps o r t).take k)) [] := by
  refine ⟨?_, fun hn => absurd rfl hn⟩
  rw [saveSteps_eq, List.take_append, runSteps_append]
  by_cases hk : k = 0
  · subst hk
    intro i hi
    simp [CacheState.runSteps] at hi ⊢
    obtain ⟨r', a, b, c, _⟩ := h.1 i hi
    exact ⟨r', a, b, c⟩
  · by_cases hl : k ≤ (saveHead o r).length
    · have : k - (saveHead o r).length = 0 := by omega
      rw [this]
      intro i hi
      have hn := saveHead_prefix s o r k (by omega)
      simp only [List.take_zero, CacheState.runSteps, List.foldl_nil] at hi hn
      rw [hn] at hi; cases hi
    · rw [List.take_of_length_le (by omega)]
      obtain ⟨h1, h2⟩ := saveHead_state s o r
      generalize s.runSteps (saveHead o r) = s2 at *
      intro i hi
      obtain ⟨m, hm⟩ : ∃ m, k - (saveHead o r).length = m + 1 := ⟨k - (saveHead o r).length - 1, by omega⟩
      rw [hm] at hi ⊢
      unfold writeInfoSteps at hi ⊢
      cases m with
      | zero =>
        simp only [Nat.zero_add, List.take_succ_cons, List.take_zero, CacheState.runSteps, List.foldl_cons, List.foldl_nil,
          CacheState.apply, Option.some.injEq] at hi ⊢
        subst hi
        exact ⟨r, hr, by rw [h1], torn_infoOf t (info_self r), by simp⟩
      | succ m =>
        simp only [List.take_succ_cons, List.take_nil, CacheState.runSteps, List.foldl_cons, List.foldl_nil,
          CacheState.apply, Option.some.injEq] at hi ⊢
        subst hi
        exact ⟨r, hr, by rw [h1], info_self r, by simp⟩

theorem cinv_save (s : CacheState) (o : Nat) (r : Resp) (t : Option Info) (hr : Sent r) :
    CInv H Sent (s.runSteps (saveSteps o r t)) [o] := by
  obtain ⟨h1, h2⟩ := saveHead_state s o r
  rw [saveSteps_eq, runSteps_append]
  generalize s.runSteps (saveHead o r) = s2 at *
  unfold writeInfoSteps
  simp only [CacheState.runSteps, List.foldl_cons, List.foldl_nil, CacheState.apply]
  refine ⟨?_, fun _ => rfl⟩
  intro i hi
  simp only [Option.some.injEq] at hi
  subst hi
  refine ⟨r, hr, by rw [h1], info_self r, ?_⟩
  intro o' ho' j hj
  simp at ho'; subst ho'
  simp only [h2, if_true, Option.some.injEq] at hj
  subst hj; exact info_self r

theorem cinv_crash (s : CacheState) (vs : List Nat) (h : CInv H Sent s vs) : CInv H Sent s.crash [] := by
  refine ⟨?_, fun hn => absurd rfl hn⟩
  intro i hi
  obtain ⟨r, a, b, c, _⟩ := h.1 i hi
  exact ⟨r, a, b, c, by simp⟩

theorem cinv_delete (s : CacheState) (vs : List Nat) (o k : Nat) (h : CInv H Sent s vs) :
    CInv H Sent (s.runSteps ((deleteSteps o).take k)) [] := by
  match k with
  | 0 =>
    refine ⟨?_, fun hn => absurd rfl hn⟩
    intro i hi
    obtain ⟨r, a, b, c, _⟩ := h.1 i hi
    exact ⟨r, a, b, c, by simp⟩
  | 1 => exact cinv_none _ rfl
  | 2 => exact cinv_none _ rfl
  | n + 3 =>
    have e : (deleteSteps o).take (n + 3) = deleteSteps o := by simp [deleteSteps]
    rw [e]; exact cinv_none _ rfl

/-- The info that an up to date object works with. -/
theorem cinv_info (s : CacheState) (vs : List Nat) (h : CInv H Sent s vs) (o : Nat) (ho : o ∈ vs) (i : Info)
    (hi : s.infoOf o = some i) :
    ∃ r, Sent r ∧ s.files.data = some r.received ∧ Spec.InfoOf H r (some i) ∧
      (∀ x, s.files.info = some x → Spec.InfoOf H r x) ∧
      ∀ o ∈ vs, ∀ j, s.mem o = some j → Spec.InfoOf H r (some j) := by
  have hsome := h.2 (by intro e; rw [e] at ho; cases ho)
  obtain ⟨x, hx⟩ := Option.isSome_iff_exists.mp hsome
  obtain ⟨r, a, b, c, d⟩ := h.1 x hx
  refine ⟨r, a, b, ?_, ?_, d⟩
  · unfold CacheState.infoOf at hi
    cases hm : s.mem o with
    | some j => rw [hm] at hi; simp at hi; subst hi; exact d o ho j hm
    | none => rw [hm, hx] at hi; simp only at hi; rw [← hi]; exact c
  · intro y hy; rw [hx] at hy; simp at hy; subst hy; exact c

theorem mem_put_cases {V : Type} (d : Dict Text V) (k : Text) (v : V) (p : Text × V) (h : p ∈ d.put k v) :
    p ∈ d ∨ p = (k, v) := by
  induction d with
  | nil => simp [Dict.put] at h; exact .inr h
  | cons q d ih =>
    obtain ⟨j, w⟩ := q
    simp only [Dict.put] at h
    split at h
    · rename_i e
      rcases List.mem_cons.mp h with h | h
      · exact .inr (by rw [h, e])
      · exact .inl (List.mem_cons_of_mem _ h)
    · rcases List.mem_cons.mp h with h | h
      · exact .inl (by rw [h]; exact List.mem_cons_self)
      · rcases ih h with h | h
        · exact .inl (List.mem_cons_of_mem _ h)
        · exact .inr h

theorem infoOf_put {r : Resp} {i : Info} (f : Text) (h : Spec.InfoOf H r (some i)) :
    Spec.InfoOf H r (some { i with hash := i.hash.put f (H f r.received) }) := by
  intro x hx
  simp at hx; subst hx
  obtain ⟨a, b, c⟩ := h i rfl
  refine ⟨a, b, ?_⟩
  intro p hp
  rcases mem_put_cases _ _ _ _ hp with hp | hp
  · exact c p hp
  · rw [hp]

/-- What the steps of a hash check keep: the data, and an info that belongs to it. -/
def KeepsInfo (H : Text → Bytes → Text) (r : Resp) (o : Nat) : CStep → Prop
  | .remember o' i => o' = o ∧ Spec.InfoOf H r (some i)
  | .openInfo t => Spec.InfoOf H r t
  | .writeInfo i => Spec.InfoOf H r (some i)
  | _ => False

theorem cinv_keeps (s : CacheState) (vs : List Nat) (o : Nat) (r : Resp) (hr : Sent r) (steps : List CStep)
    (hd : s.files.data = some r.received) (hi : ∀ x, s.files.info = some x → Spec.InfoOf H r x)
    (hsome : s.files.info.isSome = true) (hm : ∀ o ∈ vs, ∀ j, s.mem o = some j → Spec.InfoOf H r (some j))
    (hs : ∀ c ∈ steps, KeepsInfo H r o c) : CInv H Sent (s.runSteps steps) vs := by
  induction steps generalizing s with
  | nil => exact ⟨fun i hi' => ⟨r, hr, hd, hi i hi', hm⟩, fun _ => hsome⟩
  | cons c steps ih =>
    simp only [CacheState.runSteps, List.foldl_cons]
    have hc := hs c List.mem_cons_self
    have hrest : ∀ c ∈ steps, KeepsInfo H r o c := fun c h => hs c (List.mem_cons_of_mem _ h)
    cases c with
    | remember o' i =>
      obtain ⟨rfl, h2⟩ := hc
      refine ih _ hd hi hsome ?_ hrest
      intro o hov j hj
      simp only [CacheState.apply] at hj
      split at hj
      · simp at hj; subst hj; exact h2
      · exact hm o hov j hj
    | openInfo t =>
      refine ih _ hd ?_ rfl hm hrest
      intro x hx; simp [CacheState.apply] at hx; subst hx; exact hc
    | writeInfo i =>
      refine ih _ hd ?_ rfl hm hrest
      intro x hx; simp [CacheState.apply] at hx; subst hx; exact hc
    | unlinkInfo => exact hc.elim
    | unlinkData => exact hc.elim
    | openData => exact hc.elim
    | appendData b => exact hc.elim
    | forget o => exact hc.elim

theorem cinv_hash (s : CacheState) (vs : List Nat) (h : CInv H Sent s vs) (o : Nat) (ho : o ∈ vs) (f : Text)
    (t : Option Info) (k : Nat) : CInv H Sent (s.runSteps ((s.hashOf H o f t).2.take k)) vs := by
  have hsome := h.2 (by intro e; rw [e] at ho; cases ho)
  unfold CacheState.hashOf
  cases hi : s.infoOf o with
  | none => simp [CacheState.runSteps]; exact h
  | some i =>
    obtain ⟨r, hr, hd, h1, h2, h3⟩ := cinv_info s vs h o ho i hi
    apply cinv_keeps s vs o r hr _ hd h2 hsome h3
    intro c hc
    have hc := List.mem_of_mem_take hc
    have hrem : c ∈ [CStep.remember o i] → KeepsInfo H r o c := by
      intro hc; simp at hc; subst hc; exact ⟨rfl, h1⟩
    simp only at hc
    split at hc
    · exact hrem hc
    · simp only [hd] at hc
      split at hc
      · simp at hc
        rcases hc with rfl | rfl
        · exact ⟨rfl, h1⟩
        · exact ⟨rfl, infoOf_put f h1⟩
      · simp only [writeInfoSteps, List.cons_append, List.nil_append, List.mem_cons, List.not_mem_nil, or_false] at hc
        rcases hc with rfl | rfl | rfl | rfl
        · exact ⟨rfl, h1⟩
        · exact ⟨rfl, infoOf_put f h1⟩
        · exact torn_infoOf t (infoOf_put f h1)
        · exact infoOf_put f h1

theorem cinv_history (s : CacheState) (vs : List Nat) (h : Spec.CacheHistory H Sent False s vs) : CInv H Sent s vs := by
  induction h with
  | start => exact cinv_none _ rfl
  | «open» o _ he hm ih =>
    simp only [Files.exist, Bool.and_eq_true] at he
    refine ⟨?_, fun _ => he.2⟩
    intro i hi
    obtain ⟨r, a, b, c, d⟩ := ih.1 i hi
    refine ⟨r, a, b, c, ?_⟩
    intro o' ho' j hj
    rcases List.mem_cons.mp ho' with rfl | ho'
    · rw [hm] at hj; cases hj
    · exact d o' ho' j hj
  | save o r t _ hr ih => exact cinv_save _ o r t hr
  | saveFails o r t k _ hr ih => exact cinv_none _ rfl
  | delete o _ ih => exact cinv_none _ rfl
  | @hash s vs o f t _ ho ih =>
    rcases ho with ho | ho
    · have := cinv_hash _ _ ih o ho f t ((CacheState.hashOf H s o f t).2.length)
      rwa [List.take_length] at this
    · exact ho.elim
  | hashFails o f t k _ ho ih =>
    rcases ho with ho | ho
    · exact cinv_hash _ _ ih o ho f t k
    · exact ho.elim
  | crashSave o r t k _ hr ih => exact cinv_crash _ [] (cinv_save_prefix _ _ o r t k ih hr)
  | crashSaveFails o r t k j _ hr ih =>
    exact cinv_crash _ [] (cinv_delete _ [] o j (cinv_save_prefix _ _ o r t k ih hr))
  | crashDelete o k _ ih => exact cinv_crash _ [] (cinv_delete _ _ o k ih)
  | crashHash o f t k _ ho ih =>
    rcases ho with ho | ho
    · exact cinv_crash _ _ (cinv_hash _ _ ih o ho f t k)
    · exact ho.elim

end Http

/-- C31, partial: if the responses arrive completely and hash values are asked for by up to date resource objects
only, then in every history with crashes and exceptions at any step: if the cache says that the resource
exists, its data is the complete data of a response, and the info (unless it cannot be read) is that of the
same response. -/
theorem cache_complete_partial (H : Text → Bytes → Text) (Sent : Resp → Prop) (hc : ∀ r, Sent r → r.received = r.body)
    (s : CacheState) (vs : List Nat) (h : Spec.CacheHistory H Sent False s vs) (he : s.files.exist = true) :
    ∃ r i, Sent r ∧ s.files.data = some r.body ∧ s.files.info = some i ∧ Spec.InfoOf H r i := by
  simp only [Files.exist, Bool.and_eq_true] at he
  obtain ⟨i, hi⟩ := Option.isSome_iff_exists.mp he.2
  obtain ⟨r, a, b, c, _⟩ := (cinv_history s vs h).1 i hi
  exact ⟨r, i, a, by rw [b, hc r a], hi, c⟩

namespace Spec

/-- The info that belongs to a response: its `etag`; as the time its `last-modified`, without this header its `date`, and the time
of the call if what was found is missing or empty; no hashes. -/
structure SavedInfo (r : Resp) (i : Info) : Prop where
  etag : ∀ t, r.etag = some t → i.etag = some t
  noEtag : r.etag = none → i.etag = some []
  modified : ∀ t, r.lastModified = some t → t ≠ [] → i.time = some t
  date : ∀ t, r.lastModified = none → r.date = some t → t ≠ [] → i.time = some t
  now : (r.lastModified = some [] ∨ (r.lastModified = none ∧ (r.date = none ∨ r.date = some []))) → i.time = some r.now
  hash : i.hash = []

end Spec

theorem Http.Resp.info_of (r : Resp) : Spec.SavedInfo r r.info where
  etag := by intro t h; cases t <;> simp [Resp.info, orText, h]
  noEtag := by intro h; simp [Resp.info, orText, h]
  modified := by
    intro t h hne
    cases t with
    | nil => exact absurd rfl hne
    | cons c cs => simp [Resp.info, Resp.time, orText, h]
  date := by
    intro t h hd hne
    cases t with
    | nil => exact absurd rfl hne
    | cons c cs => simp [Resp.info, Resp.time, orText, h, hd]
  now := by
    rintro (h | ⟨h, hd | hd⟩)
    · simp [Resp.info, Resp.time, orText, h]
    · simp [Resp.info, Resp.time, orText, h, hd]
    · simp [Resp.info, Resp.time, orText, h, hd]
  hash := rfl

/-- C31: after `save` the resource exists, with the data and the info of the response. -/
theorem cache_saved (s : CacheState) (o : Nat) (r : Resp) (t : Option Info) (hc : r.received = r.body) :
    ∃ i, (s.runSteps (saveSteps o r t)).files = ⟨some r.body, some (some i)⟩ ∧ Spec.SavedInfo r i ∧
      (s.runSteps (saveSteps o r t)).infoOf o = some i := by
  obtain ⟨h1, h2⟩ := saveHead_state s o r
  refine ⟨r.info, ?_, r.info_of, ?_⟩
  · rw [saveSteps_eq, runSteps_append]
    simp only [writeInfoSteps, CacheState.runSteps, List.foldl_cons, List.foldl_nil, CacheState.apply] at h1 ⊢
    rw [h1, hc]
  · rw [saveSteps, runSteps_append, runSteps_append]
    simp [writeInfoSteps, CacheState.runSteps, CacheState.apply, CacheState.infoOf]

example : ((⟨⟨none, none⟩, fun _ => none⟩ : CacheState).runSteps
    (saveSteps 0 ⟨[1, 2], [1, 2], some ['e'], some ['m'], some ['d'], ['n']⟩ none)).files =
      ⟨some [1, 2], some (some ⟨some ['e'], some ['m'], []⟩)⟩ := by decide

/-- C31: after `delete`, or a `save` that fails, the resource does not exist, and the handle does not answer for
the deleted data any more. -/
theorem cache_deleted (H : Text → Bytes → Text) (s : CacheState) (o : Nat) (f : Text) (t : Option Info) :
    (s.runSteps (deleteSteps o)).files = ⟨none, none⟩ ∧
    ((s.runSteps (deleteSteps o)).hashOf H o f t).1 = none := by
  refine ⟨rfl, ?_⟩
  simp [deleteSteps, CacheState.runSteps, CacheState.apply, CacheState.hashOf, CacheState.infoOf, Dict.get]

/-- C31: if the connection is closed early, a response with a length is stored in part and counts as complete
(`HTTPResponse.read(amt)` raises no exception then and nothing compares the length). -/
theorem cache_truncated_violated : ∃ (r : Resp) (H : Text → Bytes → Text) (s : CacheState) (vs : List Nat),
    Spec.CacheHistory H (· = r) False s vs ∧ s.files.exist = true ∧ s.files.data ≠ some r.body := by
  refine ⟨⟨[1, 2], [1], none, none, none, []⟩, fun _ _ => [], _, _, .save 0 _ none .start rfl, by decide, by decide⟩

namespace Spec

/-- Two versions of a resource. -/
def oldResp : Resp := ⟨[1], [1], some ['a'], none, some ['t'], []⟩
def newResp : Resp := ⟨[2], [2], some ['b'], none, some ['u'], []⟩

/-- A hash function. -/
def digest (f : Text) (d : Bytes) : Text := f ++ d.map (fun n => if n = 1 then 'x' else 'y')

end Spec

/-- C31: a hash check by an older resource object after the resource was fetched anew writes the old info next to
the new data. -/
theorem cache_stale_info_violated : ∃ (s : CacheState) (vs : List Nat),
    Spec.CacheHistory Spec.digest (fun r => r = Spec.oldResp ∨ r = Spec.newResp) True s vs ∧
    s.files.data = some Spec.newResp.body ∧ s.files.info.bind (·.bind (·.etag)) = Spec.oldResp.etag := by
  refine ⟨_, _, .hash 0 ['s'] none (.save 1 Spec.newResp none (.save 0 Spec.oldResp none .start (.inl rfl)) (.inr rfl))
    (.inr trivial), ?_, ?_⟩ <;> decide

/-- C31: a crash while the info file is written can leave an info file that cannot be read; the resource counts as
existing. -/
theorem cache_torn_info_violated : ∃ (s : CacheState) (vs : List Nat),
    Spec.CacheHistory Spec.digest (· = Spec.oldResp) False s vs ∧ s.files.exist = true ∧ s.infoOf 5 = none := by
  refine ⟨_, _, .crashSave 0 Spec.oldResp none 5 .start rfl, ?_, ?_⟩ <;> decide

/-- C58, partial: in the histories of `cache_complete_partial` the hash check of an up to date resource object
compares with the digest of the data on disk. -/
theorem hash_check_partial (H : Text → Bytes → Text) (Sent : Resp → Prop) (s : CacheState) (vs : List Nat)
    (h : Spec.CacheHistory H Sent False s vs) (o : Nat) (ho : o ∈ vs) (f : Text) (t : Option Info) (v : Text)
    (hv : (s.hashOf H o f t).1 = some v) : ∃ d, s.files.data = some d ∧ v = H f d := by
  have inv := cinv_history s vs h
  unfold CacheState.hashOf at hv
  cases hi : s.infoOf o with
  | none => rw [hi] at hv; cases hv
  | some i =>
    rw [hi] at hv
    obtain ⟨r, hr, hd, h1, _⟩ := cinv_info s vs inv o ho i hi
    refine ⟨r.received, hd, ?_⟩
    simp only at hv
    split at hv
    · rename_i c cs hg
      simp at hv
      have := (h1 i rfl).2.2 _ (Dict.get_mem _ _ _ hg)
      rw [← hv]; exact this
    · simp only [hd] at hv
      split at hv
      · cases hv
      · simp at hv; exact hv.symm

/-- C58: an up to date object always gets an answer, unless the info file cannot be read. -/
theorem hash_check_answers (H : Text → Bytes → Text) (Sent : Resp → Prop) (s : CacheState) (vs : List Nat)
    (h : Spec.CacheHistory H Sent False s vs) (o : Nat) (ho : o ∈ vs) (f : Text) (t : Option Info)
    (hr : s.files.info ≠ some none) : ∃ v, (s.hashOf H o f t).1 = some v := by
  have inv := cinv_history s vs h
  have hsome := inv.2 (by intro e; rw [e] at ho; cases ho)
  obtain ⟨x, hx⟩ := Option.isSome_iff_exists.mp hsome
  obtain ⟨i, hi⟩ : ∃ i, s.infoOf o = some i := by
    unfold CacheState.infoOf
    cases s.mem o with
    | some j => exact ⟨j, rfl⟩
    | none =>
      rw [hx] at hr ⊢
      cases x with
      | none => exact absurd rfl hr
      | some j => exact ⟨j, rfl⟩
  obtain ⟨r, _, hd, h1, _⟩ := cinv_info s vs inv o ho i hi
  unfold CacheState.hashOf
  rw [hi]
  simp only
  split
  · exact ⟨_, rfl⟩
  · simp only [hd, if_neg hr]; exact ⟨_, rfl⟩

/-- C58: an older resource object answers for the data that was there before. -/
theorem hash_check_violated : ∃ (s : CacheState) (vs : List Nat) (o : Nat) (v : Text),
    Spec.CacheHistory Spec.digest (fun r => r = Spec.oldResp ∨ r = Spec.newResp) True s vs ∧
    (s.hashOf Spec.digest o ['s'] none).1 = some v ∧ s.files.data = some Spec.newResp.body ∧
    v = Spec.digest ['s'] Spec.oldResp.body ∧ v ≠ Spec.digest ['s'] Spec.newResp.body := by
  refine ⟨_, _, 0, Spec.digest ['s'] [1], .save 1 Spec.newResp none (.hash 0 ['s'] none (.save 0 Spec.oldResp none .start (.inl rfl))
    (.inr trivial)) (.inr rfl), ?_, ?_, ?_, ?_⟩ <;> decide

/-- A history with a crash in `save`, a complete `save`, a cached fetch and a hash check. -/
example : ∃ s vs, Spec.CacheHistory Spec.digest (fun r => r = Spec.oldResp ∨ r = Spec.newResp) False s vs ∧
    s.files = ⟨some [2], some (some ⟨some ['b'], some ['u'], [(['s'], ['s', 'y'])]⟩)⟩ ∧ 7 ∈ vs := by
  refine ⟨_, _, .hash 7 ['s'] none (.open 7 (.save 1 Spec.newResp none
    (.crashSave 0 Spec.oldResp none 3 .start (.inl rfl)) (.inr rfl)) ?_ ?_) (.inl ?_), ?_, ?_⟩
  · decide
  · decide
  · decide
  · decide
  · decide

end Pkm
