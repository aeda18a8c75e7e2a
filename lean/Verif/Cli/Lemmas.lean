import Verif.Cli.Spec
set_option linter.unusedVariables false
set_option linter.unusedSimpArgs false
/-
Lemmas about the command line parser.
-/
namespace Pkm
namespace Cli

variable {V : Type}

/-! ### Option keys -/

theorem dropWhile_id (s : Text) (h : ∀ c, s.head? = some c → isSpace c = false) : s.dropWhile isSpace = s := by
  cases s with
  | nil => rfl
  | cons c s => simp [List.dropWhile, h c rfl]

theorem strip_id (s : Text) (h : Trimmed s) : optionKey.strip s = s := by
  unfold optionKey.strip
  rw [dropWhile_id s h.1, dropWhile_id]
  · simp
  · simpa [List.head?_reverse] using h.2

theorem takeWhile_all (s : Text) (h : '=' ∉ s) : s.takeWhile (· ≠ '=') = s := by
  induction s with
  | nil => rfl
  | cons c s ih =>
    simp at h
    have : ¬ c = '=' := fun e => h.1 e.symm
    simp [List.takeWhile, this]
    simpa using ih h.2

theorem dropWhile_all (s : Text) (h : '=' ∉ s) : s.dropWhile (· ≠ '=') = [] := by
  induction s with
  | nil => rfl
  | cons c s ih =>
    simp at h
    have : ¬ c = '=' := fun e => h.1 e.symm
    simp [List.dropWhile, this]
    simpa using ih h.2

theorem takeWhile_eq (s t : Text) (h : '=' ∉ s) : (s ++ '=' :: t).takeWhile (· ≠ '=') = s := by
  induction s with
  | nil => simp [List.takeWhile]
  | cons c s ih =>
    simp at h
    have : ¬ c = '=' := fun e => h.1 e.symm
    simp [List.takeWhile, this]
    simpa using ih h.2

theorem dropWhile_eq (s t : Text) (h : '=' ∉ s) : (s ++ '=' :: t).dropWhile (· ≠ '=') = '=' :: t := by
  induction s with
  | nil => simp [List.dropWhile]
  | cons c s ih =>
    simp at h
    have : ¬ c = '=' := fun e => h.1 e.symm
    simp [List.dropWhile, this]
    simpa using ih h.2

theorem optionKey_name (n : Text) (h : NameOk n) (rest : List Text) : optionKey n rest = (n, rest) := by
  unfold optionKey
  rw [takeWhile_all n h.1, dropWhile_all n h.1]
  simp [strip_id n h.2]

theorem optionKey_eq (n v : Text) (h : NameOk n) (hv : v ≠ []) (ht : Trimmed v) (rest : List Text) :
    optionKey (n ++ '=' :: v) rest = (n, v :: rest) := by
  unfold optionKey
  rw [takeWhile_eq n v h.1, dropWhile_eq n v h.1]
  cases v with
  | nil => exact absurd rfl hv
  | cons c v => simp [strip_id n h.2, strip_id _ ht]

/-! ### Sizes -/

theorem size_cons (a : Text) (l : List Text) : size (a :: l) = a.length + 1 + size l := by simp [size]

theorem strip_length (s : Text) : (optionKey.strip s).length ≤ s.length := by
  unfold optionKey.strip
  have h1 : ∀ t : Text, (t.dropWhile isSpace).length ≤ t.length := fun t => (List.dropWhile_sublist _).length_le
  have := h1 (s.dropWhile isSpace).reverse
  have := h1 s
  simp at *
  omega

theorem optionKey_size (a : Text) (rest : List Text) : size (optionKey a rest).2 < size (a :: rest) := by
  unfold optionKey
  simp only
  split
  · simp [size_cons]
  · rw [size_cons, size_cons]
    have h1 := strip_length ((a.dropWhile (· ≠ '=')).drop 1)
    have h2 : (a.dropWhile (· ≠ '=')).length ≤ a.length := (List.dropWhile_sublist _).length_le
    rename_i hne
    have h3 : ((a.dropWhile (· ≠ '=')).drop 1).length < (a.dropWhile (· ≠ '=')).length := by
      cases h : a.dropWhile (· ≠ '=') with
      | nil => exact absurd (by rw [h]; rfl) hne
      | cons c t => simp
    omega

theorem readValue_size (r : Reader V) (buf : List Text) (x : Arg V) (buf' : List Text)
    (h : readValue r buf = .ok (x, buf')) : size buf' ≤ size buf := by
  cases r with
  | flag => simp [readValue] at h; simp [h.2]
  | text conv =>
    cases buf with
    | nil => simp [readValue] at h
    | cons a rest =>
      simp only [readValue] at h
      split at h
      · simp at h; rw [← h.2, size_cons]; omega
      · simp at h

theorem fieldLoop_size (fs : List (FieldDef V)) (n : Nat) : ∀ (acc acc' : List (Text × Arg V)) (buf buf' : List Text),
    fieldLoop fs n acc buf = .ok (acc', buf') → size buf' ≤ size buf := by
  induction n with
  | zero => intro acc acc' buf buf' h; simp [fieldLoop] at h; simp [h.2]
  | succ n ih =>
    intro acc acc' buf buf' h
    cases buf with
    | nil => simp [fieldLoop] at h; simp [h.2]
    | cons a rest =>
      simp only [fieldLoop] at h
      split at h
      · split at h
        · simp at h
        · split at h
          · simp at h
          · rename_i f _ x buf1 hr
            have h1 := ih _ _ _ _ h
            have h2 := readValue_size _ _ _ _ hr
            have h3 := optionKey_size a rest
            omega
      · simp at h; simp [h.2]

theorem readFields_size (fs : Option (List (FieldDef V))) (v x : Arg V) (buf buf' : List Text)
    (h : readFields fs v buf = .ok (x, buf')) : size buf' ≤ size buf := by
  cases fs with
  | none => simp [readFields] at h; simp [h.2]
  | some fs =>
    simp only [readFields] at h
    split at h
    · simp at h
    · rename_i hl
      split at h
      · simp at h
      · simp at h
        rw [← h.2]
        exact fieldLoop_size _ _ _ _ _ _ hl

theorem readOption_size (o : OptDef V) (args args' : Args V) (buf buf' : List Text)
    (h : readOption o args buf = .ok (args', buf')) : size buf' ≤ size buf := by
  simp only [readOption] at h
  split at h
  · simp at h
  · rename_i hv
    split at h
    · simp at h
    · rename_i hf
      simp at h
      have := readValue_size _ _ _ _ hv
      have := readFields_size _ _ _ _ _ hf
      rw [← h.2]
      omega

theorem shorts_size (off : V) (opts : List (OptDef V)) (cs : Text) : ∀ (need : Option (OptDef V)) (args args' : Args V)
    (buf buf' : List Text), shorts off opts cs need args buf = .ok (args', buf') → size buf' ≤ size buf := by
  induction cs with
  | nil =>
    intro need args args' buf buf' h
    cases need with
    | none => simp [shorts] at h; simp [h.2]
    | some o => exact readOption_size o _ _ _ _ (by simpa [shorts] using h)
  | cons c cs ih =>
    intro need args args' buf buf' h
    cases need with
    | some o => simp [shorts] at h
    | none =>
      simp only [shorts] at h
      split at h
      · simp at h
      · split at h
        · split at h
          · simp at h
          · rename_i hf
            have := readFields_size _ _ _ _ _ hf
            have := ih _ _ _ _ _ h
            omega
        · exact ih _ _ _ _ _ h

theorem posLoop_size (p : PosDef V) (n : Nat) : ∀ (left : Option Nat) (acc acc' : List (Arg V)) (buf buf' : List Text),
    posLoop p n left acc buf = .ok (acc', buf') →
    size buf' ≤ size buf ∧ (left ≠ some 0 → n ≠ 0 → buf ≠ [] → size buf' < size buf) := by
  induction n with
  | zero => intro left acc acc' buf buf' h; simp [posLoop] at h; simp [h.2]
  | succ n ih =>
    intro left acc acc' buf buf' h
    cases buf with
    | nil => simp [posLoop] at h; simp [h.2]
    | cons a rest =>
      by_cases hl : left = some 0
      · subst hl
        simp [posLoop] at h
        simp [h.2]
      · have h' : (match p.conv a with
            | none => (.error .value : Except Err _)
            | some v =>
              match readFields p.fields (.val v) rest with
              | .error e => .error e
              | .ok (v', buf') => posLoop p n (left.map (· - 1)) (acc ++ [v']) buf') = .ok (acc', buf') := by
          rw [posLoop] at h
          · exact h
          · intro e; exact hl e
        split at h'
        · simp at h'
        · split at h'
          · simp at h'
          · rename_i hf
            have h1 := (ih _ _ _ _ _ h').1
            have h2 := readFields_size _ _ _ _ _ hf
            rw [size_cons]
            refine ⟨by omega, fun _ _ _ => by omega⟩

theorem readOptionOrFlag_size (off : V) (opts : List (OptDef V)) (a : Text) (rest : List Text) (args args' : Args V)
    (buf' : List Text) (h : readOptionOrFlag off opts a rest args = .ok (args', buf')) :
    size buf' < size (a :: rest) := by
  have hk := optionKey_size a rest
  simp only [readOptionOrFlag] at h
  split at h
  · split at h
    · simp at h
    · have := readOption_size _ _ _ _ _ h
      omega
  · have := shorts_size _ _ _ _ _ _ _ _ h
    omega
  · simp at h
    rw [← h.2]
    exact hk

theorem step_size (off : V) (s s' : St V) (a : Text) (rest : List Text) (h : step off s a rest = .ok s') :
    size s'.buf < size (a :: rest) := by
  simp only [step] at h
  split at h
  · split at h
    · simp at h
    · rename_i hr
      simp at h
      rw [← h]
      exact readOptionOrFlag_size _ _ _ _ _ _ _ hr
  · split at h
    · simp at h
    · split at h
      · split at h
        · simp at h
        · simp at h
          rw [← h]
          simp [size_cons]
      · split at h
        · split at h
          · simp at h
          · rename_i p _ x args buf hr
            simp at h
            rw [← h]
            simp only
            simp only [readPositional] at hr
            split at hr
            · simp at hr
            · rename_i hl
              split at hr
              · simp at hr
              · simp at hr
                rw [← hr.2]
                refine (posLoop_size _ _ _ _ _ _ _ hl).2 ?_ ?_ (by simp)
                · cases p.extra <;> simp
                · simp [size_cons]
        · simp at h

/-- The loop takes at most as many turns as it is given. -/
theorem loop_fuel (off : V) (n : Nat) : ∀ s : St V, size s.buf ≤ n → loop off n s = loop off (size s.buf) s := by
  induction n using Nat.strongRecOn with
  | ind n ih =>
    intro s hs
    cases n with
    | zero => have : size s.buf = 0 := by omega
              rw [this]
    | succ n =>
      cases hb : s.buf with
      | nil => simp [size, loop, hb]
      | cons a rest =>
        rw [hb, size_cons] at hs
        have e : a.length + 1 + size rest = (a.length + size rest) + 1 := by omega
        rw [size_cons, e]
        cases a with
        | nil => simp [loop, hb]
        | cons c a =>
          simp only [loop, hb]
          cases hst : step off s (c :: a) rest with
          | error e => rfl
          | ok s' =>
            have hsz := step_size off s s' _ _ hst
            rw [size_cons] at hsz
            simp only
            rw [ih n (by omega) s' (by omega)]
            by_cases hlt : (c :: a).length + size rest < n + 1
            · rw [ih _ hlt s' (by omega)]
            · have : (c :: a).length + size rest = n := by omega
              rw [this, ih n (by omega) s' (by omega)]

theorem loop_next (off : V) (s s' : St V) (c : Char) (a : Text) (rest : List Text) (hb : s.buf = (c :: a) :: rest)
    (h : step off s (c :: a) rest = .ok s') : loop off (size s.buf) s = loop off (size s'.buf) s' := by
  have hsz := step_size off s s' _ _ h
  rw [size_cons] at hsz
  have e : size s.buf = ((c :: a).length + size rest) + 1 := by rw [hb, size_cons]; omega
  rw [e, loop]
  simp only [hb, h]
  exact loop_fuel off _ s' (by omega)

theorem loop_error (off : V) (s : St V) (e : Err) (c : Char) (a : Text) (rest : List Text) (hb : s.buf = (c :: a) :: rest)
    (h : step off s (c :: a) rest = .error e) : loop off (size s.buf) s = .error e := by
  rw [hb, size_cons]
  have e : (c :: a).length + 1 + size rest = ((c :: a).length + size rest) + 1 := by omega
  rw [e, loop]
  simp only [hb, h]

/-! ### Finding options -/

theorem find_declared (off : V) (opts : List (OptDef V)) (o : OptDef V) (name : Text) (h : Declared off opts o name) :
    findOption off opts name = some o := by
  obtain ⟨hm, hn, hu⟩ := h
  unfold findOption
  cases hf : opts.reverse.find? (fun o => decide (name ∈ o.names)) with
  | some o' =>
    have h1 := List.mem_of_find?_eq_some hf
    have h2 := List.find?_some hf
    simp at h1 h2
    simp [hu o' (by simp [h1]) h2]
  | none =>
    rw [List.find?_eq_none] at hf
    simp at hm
    rcases hm with rfl | hm
    · simp [hn]
    · have := hf o (by simpa using hm)
      simp [hn] at this

/-! ### Items -/

/-- Binds values to options one after the other. -/
def bindAll (gs : List (OptDef V × Arg V)) (args : Args V) : Args V :=
  gs.foldl (fun a p => bindOption p.1 p.2 a) args

theorem shorts_flags (off : V) (opts : List (OptDef V)) (fl : List (OptDef V × Char)) (h : FlagsOk off opts fl)
    (more : Text) (buf : List Text) : ∀ args : Args V, shorts off opts (letters fl ++ more) none args buf =
      shorts off opts more none (bindAll (fl.map (fun p => (p.1, .flag))) args) buf := by
  induction fl with
  | nil => intro args; simp [letters, bindAll]
  | cons p fl ih =>
    intro args
    obtain ⟨h1, h2, h3, h4⟩ := h p (by simp)
    have hf := find_declared off opts p.1 _ h1
    have : letters (p :: fl) = p.2 :: letters fl := rfl
    rw [this, List.cons_append, shorts]
    simp only [hf, OptDef.isFlag, h2, h3, readFields, if_true]
    rw [ih (fun q hq => h q (by simp [hq]))]
    simp [bindAll, bindOption, h4]

theorem nameOk_letters (s : Text) (h : LettersOk s) : NameOk ('-' :: s) := by
  obtain ⟨h1, h2, h3⟩ := h
  refine ⟨?_, ?_, ?_⟩
  · simp
    intro hm
    exact (h3 '=' hm).1 rfl
  · intro c hc
    simp at hc
    subst hc
    decide
  · intro c hc
    cases s with
    | nil => exact absurd rfl h2
    | cons d s =>
      rw [List.getLast?_cons_cons] at hc
      exact (h3 c (List.mem_of_getLast? hc)).2

theorem readOption_text (o : OptDef V) (hf : o.fields = none) (conv : Text → Option V) (hr : o.reader = .text conv)
    (v : Text) (w : V) (hw : conv v = some w) (args : Args V) (rest : List Text) :
    readOption o args (v :: rest) = .ok (bindOption o (.val w) args, rest) := by
  simp [readOption, hr, readValue, hw, hf, readFields]

theorem readOption_flag (o : OptDef V) (hf : o.fields = none) (hr : o.reader = .flag) (args : Args V)
    (rest : List Text) : readOption o args rest = .ok (bindOption o .flag args, rest) := by
  simp [readOption, hr, readValue, hf, readFields]

/-- What an item does to the arguments. -/
def Item.run (n : Node V) (i : Nat) (args : Args V) : Item V → Args V
  | .pos vs =>
    match n.positional[i]? with
    | some p => args.put p.name (if p.extra = some 0 then (match vs with | q :: _ => .val q.2 | [] => .many []) else .many (vs.map (fun q => .val q.2)))
    | none => args
  | it => bindAll it.gives args

/-- The number of positional arguments after an item. -/
def Item.next (i : Nat) : Item V → Nat
  | .pos _ => i + 1
  | _ => i

theorem step_option (off : V) (s : St V) (a : Text) (rest : List Text) (args : Args V) (buf : List Text)
    (ha : a.head? = some '-') (h : readOptionOrFlag off s.node.options a rest s.args = .ok (args, buf)) :
    step off s a rest = .ok { s with args := args, buf := buf } := by
  simp [step, ha, h]

theorem loop_option (off : V) (s : St V) (a : Text) (rest : List Text) (args : Args V) (buf : List Text)
    (hb : s.buf = a :: rest) (ha : a.head? = some '-')
    (h : readOptionOrFlag off s.node.options a rest s.args = .ok (args, buf)) :
    loop off (size s.buf) s = loop off (size buf) { s with args := args, buf := buf } := by
  cases a with
  | nil => simp at ha
  | cons c a => exact loop_next off s _ c a rest hb (step_option off s _ rest args buf ha h)

theorem posLoop_values (p : PosDef V) (hf : p.fields = none) (vs : List (Text × V)) (hc : ∀ q ∈ vs, p.conv q.1 = some q.2)
    (rest : List Text) : ∀ (n : Nat) (left : Option Nat) (acc : List (Arg V)), size (vs.map (·.1) ++ rest) ≤ n →
    (left = some vs.length ∨ (left = none ∧ rest = [])) →
    posLoop p n left acc (vs.map (·.1) ++ rest) = .ok (acc ++ vs.map (fun q => .val q.2), rest) := by
  induction vs with
  | nil =>
    intro n left acc hn hl
    cases n with
    | zero => simp [posLoop]
    | succ n =>
      rcases hl with rfl | ⟨rfl, rfl⟩
      · cases rest <;> simp [posLoop]
      · simp [posLoop]
  | cons q vs ih =>
    intro n left acc hn hl
    simp only [List.map_cons, List.cons_append, size_cons] at hn ⊢
    cases n with
    | zero => omega
    | succ n =>
      have hq := hc q (by simp)
      rw [posLoop]
      · simp only [hq, hf, readFields]
        rw [ih (fun x hx => hc x (by simp [hx])) n _ _ (by omega)]
        · simp
        · rcases hl with rfl | ⟨rfl, rfl⟩
          · left; simp
          · right; simp
      · intro e
        rcases hl with rfl | ⟨rfl, rfl⟩ <;> simp at e

theorem posValue_values (p : PosDef V) (a : Text) (w : V) (vs' : List (Text × V))
    (h : ∀ k, p.extra = some k → vs'.length = k) :
    posValue p (((a, w) :: vs').map (fun q => .val q.2)) =
      .ok (if p.extra = some 0 then .val w else .many (((a, w) :: vs').map (fun q => .val q.2))) := by
  unfold posValue
  cases he : p.extra with
  | none => simp
  | some k =>
    have hk := h k he
    cases k with
    | zero => simp at hk; simp [hk]
    | succ k => simp [hk]

/-- One item of the command line. -/
theorem loop_item (off : V) (n : Node V) (i : Nat) (it : Item V) (items : List (Item V)) (last : Bool)
    (h : ItemsOk off n i (it :: items) last) (rest : List Text)
    (hrest : last = true → rest = []) (s : St V) (hn : s.node = n) (hi : s.index = i)
    (hb : s.buf = it.render ++ (items.flatMap Item.render ++ rest)) :
    loop off (size s.buf) s = loop off (size (items.flatMap Item.render ++ rest))
      { s with args := it.run n i s.args, index := it.next i, buf := items.flatMap Item.render ++ rest } ∧
    ItemsOk off n (it.next i) items last := by
  subst hn hi
  generalize hR : items.flatMap Item.render ++ rest = R at hb ⊢
  cases it with
  | long o u x =>
    rw [ItemsOk] at h
    obtain ⟨hd, hnm, ⟨t, ht⟩, hf, hm, hrec⟩ := h
    refine ⟨?_, hrec⟩
    have hfind := find_declared off _ o _ hd
    have key : ∀ (a : Text) (k2 : List Text), optionKey a R = (u.name, k2) →
        readOption o s.args k2 = .ok (bindOption o x s.args, R) →
        readOptionOrFlag off s.node.options a R s.args = .ok (bindOption o x s.args, R) := by
      intro a k2 hk hr
      unfold readOptionOrFlag
      simp only [hk]
      rw [ht] at hfind ⊢
      simp only [hfind, hr]
    cases u with
    | flag nm =>
      cases hrd : o.reader with
      | text conv => simp [Use.Means, hrd] at hm
      | flag =>
        simp [Use.Means, hrd] at hm
        subst hm
        simp only [Use.name] at ht hnm key
        exact loop_option off s nm R _ _ hb (by rw [ht]; rfl)
          (key nm R (optionKey_name nm hnm R) (readOption_flag o hf hrd _ _))
    | sep nm v =>
      cases hrd : o.reader with
      | flag => simp [Use.Means, hrd] at hm
      | text conv =>
        simp only [Use.Means, hrd] at hm
        obtain ⟨w, hw, rfl⟩ := hm
        simp only [Use.name] at ht hnm hfind
        refine loop_option off s nm (v :: R) _ _ hb (by rw [ht]; rfl) ?_
        unfold readOptionOrFlag
        simp only [optionKey_name nm hnm]
        rw [ht] at hfind ⊢
        simp only [hfind, readOption_text o hf conv hrd v w hw]
        rfl
    | eq nm v =>
      cases hrd : o.reader with
      | flag => simp [Use.Means, hrd] at hm
      | text conv =>
        simp only [Use.Means, hrd] at hm
        obtain ⟨hv, htr, w, hw, rfl⟩ := hm
        simp only [Use.name] at ht hnm key
        exact loop_option off s (nm ++ '=' :: v) R _ _ hb (by rw [ht]; rfl)
          (key _ (v :: R) (optionKey_eq nm v hnm hv htr R) (readOption_text o hf conv hrd v w hw _ _))
  | short fl =>
    rw [ItemsOk] at h
    obtain ⟨hfl, hl, hrec⟩ := h
    refine ⟨?_, hrec⟩
    have hnm := nameOk_letters _ hl
    refine loop_option off s ('-' :: letters fl) R _ _ hb rfl ?_
    unfold readOptionOrFlag
    simp only [optionKey_name _ hnm]
    have hs := shorts_flags off s.node.options fl hfl [] R s.args
    simp only [List.append_nil] at hs
    cases hlet : letters fl with
    | nil => exact absurd hlet hl.2.1
    | cons c cs =>
      have hc : c ≠ '-' := by
        rintro rfl
        exact hl.1 (by rw [hlet]; rfl)
      rw [hlet] at hs
      split
      · rename_i heq; simp at heq; exact absurd heq.1 hc
      · rename_i heq; simp at heq; subst heq; rw [hs]; simp [shorts, Item.run, Item.gives]
      · rename_i h1; exact absurd rfl (h1 (c :: cs))
  | shortValue fl o c v eq w =>
    rw [ItemsOk] at h
    obtain ⟨hfl, hl, hd, hf, ⟨conv, hrd, hw⟩, heq, hrec⟩ := h
    refine ⟨?_, hrec⟩
    have hnm := nameOk_letters _ hl
    have hfind := find_declared off _ o _ hd
    have hs : shorts off s.node.options (letters fl ++ [c]) none s.args (v :: R) =
        .ok (bindAll (fl.map (fun p => (p.1, .flag)) ++ [(o, .val w)]) s.args, R) := by
      rw [shorts_flags off s.node.options fl hfl [c] (v :: R) s.args, shorts]
      simp only [hfind, OptDef.isFlag, hrd, Bool.false_eq_true, if_false, shorts, readOption_text o hf conv hrd v w hw]
      simp [bindAll]
    have key : ∀ (a : Text) (rest' : List Text), optionKey a rest' = ('-' :: (letters fl ++ [c]), v :: R) →
        readOptionOrFlag off s.node.options a rest' s.args =
          .ok (bindAll (fl.map (fun p => (p.1, .flag)) ++ [(o, .val w)]) s.args, R) := by
      intro a rest' hk
      unfold readOptionOrFlag
      simp only [hk]
      cases hlet : letters fl ++ [c] with
      | nil => simp at hlet
      | cons d ds =>
        have hc : d ≠ '-' := by
          rintro rfl
          exact hl.1 (by rw [hlet]; rfl)
        rw [hlet] at hs
        split
        · rename_i heq; simp at heq; exact absurd heq.1 hc
        · rename_i heq; simp at heq; subst heq; exact hs
        · rename_i h1; exact absurd rfl (h1 (d :: ds))
    cases eq with
    | true =>
      obtain ⟨hv, htr⟩ := heq rfl
      exact loop_option off s _ R _ _ hb rfl (key _ _ (optionKey_eq _ v hnm hv htr R))
    | false =>
      exact loop_option off s _ (v :: R) _ _ hb rfl (key _ _ (optionKey_name _ hnm (v :: R)))
  | pos vs =>
    rw [ItemsOk] at h
    obtain ⟨⟨p, a, w, vs', hp, hf, rfl, hpl, hch, hconv, hcount⟩, hrec⟩ := h
    refine ⟨?_, hrec⟩
    obtain ⟨ha, h1, h2⟩ := hpl
    cases a with
    | nil => exact absurd rfl ha
    | cons c a =>
      have hpl : posLoop p (size ((((c :: a, w) :: vs').map (·.1)) ++ R)) (p.extra.map (· + 1)) []
          ((((c :: a, w) :: vs').map (·.1)) ++ R) = .ok (((c :: a, w) :: vs').map (fun q => .val q.2), R) := by
        have := posLoop_values p hf ((c :: a, w) :: vs') hconv R _ (p.extra.map (· + 1)) [] (Nat.le_refl _) ?_
        · simpa using this
        · cases he : p.extra with
          | none =>
            rw [he] at hcount
            right
            obtain ⟨rfl, hlast⟩ := hcount
            simp [← hR, hrest hlast]
          | some k =>
            rw [he] at hcount
            simp at hcount
            left
            simp [hcount]
      have hpv := posValue_values p (c :: a) w vs' (by
        intro k hk
        rw [hk] at hcount
        exact hcount)
      refine loop_next off s { s with args := Item.run s.node s.index s.args (.pos ((c :: a, w) :: vs')), index := s.index + 1, buf := R } c a (vs'.map (·.1) ++ R) hb ?_
      unfold step
      simp only [h1, h2, if_false, hch, hp, readPositional]
      simp only [List.map_cons, List.cons_append] at hpl hpv
      simp only [hpl, hpv]
      simp [Item.run, hp, Item.next]

/-- The arguments after some items. -/
def runItems (n : Node V) : Nat → List (Item V) → Args V → Args V
  | _, [], args => args
  | i, it :: items, args => runItems n (it.next i) items (it.run n i args)

/-- The number of positional arguments after some items. -/
def nextItems : Nat → List (Item V) → Nat
  | i, [] => i
  | i, it :: items => nextItems (it.next i) items

theorem loop_items (off : V) (n : Node V) (items : List (Item V)) : ∀ (i : Nat) (last : Bool) (s : St V)
    (rest : List Text), ItemsOk off n i items last → (last = true → rest = []) → s.node = n → s.index = i →
    s.buf = items.flatMap Item.render ++ rest →
    loop off (size s.buf) s = loop off (size rest)
      { s with args := runItems n i items s.args, index := nextItems i items, buf := rest } := by
  induction items with
  | nil =>
    intro i last s rest _ _ hn hi hb
    simp at hb
    subst hi
    rw [← hb]
    rfl
  | cons it items ih =>
    intro i last s rest h hr hn hi hb
    obtain ⟨h1, h2⟩ := loop_item off n i it items last h rest hr s hn hi (by simpa using hb)
    rw [h1]
    exact ih (it.next i) last { s with args := it.run n i s.args, index := it.next i, buf := items.flatMap Item.render ++ rest } rest h2 hr hn rfl rfl

theorem posGiven_next (items : List (Item V)) : ∀ i, nextItems i items = i + (posGiven items).length := by
  induction items with
  | nil => intro i; rfl
  | cons it items ih =>
    intro i
    cases it <;> simp [nextItems, Item.next, posGiven, ih] <;> omega

/-! ### What the items bind -/

/-- What an option is bound to after some values. -/
def bindResult (o : OptDef V) : List (Arg V) → Option (Arg V)
  | [] => none
  | v :: vs => if o.repeatable then some (.many (v :: vs)) else (v :: vs).getLast?

theorem bindOption_same (o : OptDef V) (args : Args V) (gs : List (Arg V)) (x : Arg V)
    (h : args.get o.name = bindResult o gs) : (bindOption o x args).get o.name = bindResult o (gs ++ [x]) := by
  unfold bindOption
  cases hr : o.repeatable with
  | false =>
    simp only [Bool.false_eq_true, if_false, Dict.get_put, if_true]
    cases gs with
    | nil => simp [bindResult, hr]
    | cons g gs => simp [bindResult, hr, List.getLast?_cons]
  | true =>
    simp only [if_true]
    cases gs with
    | nil =>
      rw [h]
      simp [bindResult, hr, Dict.get_put]
    | cons g gs =>
      rw [h]
      simp [bindResult, hr, Dict.get_put]

theorem bindOption_other (o : OptDef V) (args : Args V) (x : Arg V) (n : Text) (h : o.name ≠ n) :
    (bindOption o x args).get n = args.get n := by
  unfold bindOption
  split
  · split <;> simp [Dict.get_put, h]
  · simp [Dict.get_put, h]

theorem bindAll_same (o : OptDef V) (gs : List (OptDef V × Arg V)) (hg : ∀ p ∈ gs, p.1.name = o.name → p.1 = o) :
    ∀ (args : Args V) (gs0 : List (Arg V)), args.get o.name = bindResult o gs0 →
    (bindAll gs args).get o.name =
      bindResult o (gs0 ++ ((gs.filter (fun p => decide (p.1.name = o.name))).map (·.2))) := by
  induction gs with
  | nil => intro args gs0 h; simpa [bindAll] using h
  | cons p gs ih =>
    intro args gs0 h
    simp only [bindAll, List.foldl_cons]
    by_cases e : p.1.name = o.name
    · have ho := hg p (by simp) e
      have := ih (fun q hq => hg q (by simp [hq])) (bindOption p.1 p.2 args) (gs0 ++ [p.2])
        (by rw [ho]; exact bindOption_same o args gs0 p.2 h)
      simp only [bindAll] at this
      rw [this]
      simp [e]
    · have := ih (fun q hq => hg q (by simp [hq])) (bindOption p.1 p.2 args) gs0
        (by rw [bindOption_other _ _ _ _ e]; exact h)
      simp only [bindAll] at this
      rw [this]
      simp [e]

theorem bindAll_other (n : Text) (gs : List (OptDef V × Arg V)) (hg : ∀ p ∈ gs, p.1.name ≠ n) :
    ∀ (args : Args V), (bindAll gs args).get n = args.get n := by
  induction gs with
  | nil => intro args; rfl
  | cons p gs ih =>
    intro args
    simp only [bindAll, List.foldl_cons]
    have := ih (fun q hq => hg q (by simp [hq])) (bindOption p.1 p.2 args)
    simp only [bindAll] at this
    rw [this, bindOption_other _ _ _ _ (hg p (by simp))]

/-- The options of items are options of the command. -/
theorem gives_declared (off : V) (n : Node V) (items : List (Item V)) : ∀ (i : Nat) (last : Bool),
    ItemsOk off n i items last → ∀ it ∈ items, ∀ p ∈ it.gives, p.1 ∈ helpOption off :: n.options := by
  induction items with
  | nil => intro i last _ it hit; simp at hit
  | cons it items ih =>
    intro i last h it' hit p hp
    cases it with
    | long o u x =>
      rw [ItemsOk] at h
      rcases List.mem_cons.1 hit with rfl | hit
      · simp [Item.gives] at hp; subst hp; exact h.1.1
      · exact ih _ _ h.2.2.2.2.2 it' hit p hp
    | short fl =>
      rw [ItemsOk] at h
      rcases List.mem_cons.1 hit with rfl | hit
      · simp only [Item.gives, List.mem_map] at hp
        obtain ⟨q, hq, rfl⟩ := hp
        exact (h.1 q hq).1.1
      · exact ih _ _ h.2.2 it' hit p hp
    | shortValue fl o c v eq w =>
      rw [ItemsOk] at h
      rcases List.mem_cons.1 hit with rfl | hit
      · simp only [Item.gives, List.mem_append, List.mem_map, List.mem_singleton] at hp
        rcases hp with ⟨q, hq, rfl⟩ | rfl
        · exact (h.1 q hq).1.1
        · exact h.2.2.1.1
      · exact ih _ _ h.2.2.2.2.2.2 it' hit p hp
    | pos vs =>
      rw [ItemsOk] at h
      rcases List.mem_cons.1 hit with rfl | hit
      · simp [Item.gives] at hp
      · exact ih _ _ h.2 it' hit p hp

theorem name_inj {α : Type} (f : α → Text) (l : List α) (h : (l.map f).Nodup) : ∀ a ∈ l, ∀ b ∈ l, f a = f b → a = b := by
  induction l with
  | nil => simp
  | cons x l ih =>
    simp only [List.map_cons, List.nodup_cons] at h
    intro a ha b hb e
    rcases List.mem_cons.1 ha with rfl | ha' <;> rcases List.mem_cons.1 hb with rfl | hb'
    · rfl
    · exact absurd (List.mem_map.2 ⟨b, hb', e.symm⟩) h.1
    · exact absurd (List.mem_map.2 ⟨a, ha', e⟩) h.1
    · exact ih h.2 a ha' b hb' e

theorem run_option (n : Node V) (i : Nat) (it : Item V) (args : Args V) (o : OptDef V)
    (hpos : ∀ p ∈ n.positional, p.name ≠ o.name) (hg : ∀ p ∈ it.gives, p.1.name = o.name → p.1 = o)
    (gs0 : List (Arg V)) (h : args.get o.name = bindResult o gs0) :
    (it.run n i args).get o.name =
      bindResult o (gs0 ++ ((it.gives.filter (fun p => decide (p.1.name = o.name))).map (·.2))) := by
  cases it with
  | pos vs =>
    simp only [Item.run, Item.gives]
    split
    · rename_i p hp
      have := hpos p (List.mem_of_getElem? hp)
      simp [Dict.get_put, this, h]
    · simp [h]
  | long o' u x => exact bindAll_same o _ hg args gs0 h
  | short fl => exact bindAll_same o _ hg args gs0 h
  | shortValue fl o' c v eq w => exact bindAll_same o _ hg args gs0 h

theorem runItems_option (n : Node V) (o : OptDef V) (hpos : ∀ p ∈ n.positional, p.name ≠ o.name) (items : List (Item V))
    (hg : ∀ it ∈ items, ∀ p ∈ it.gives, p.1.name = o.name → p.1 = o) : ∀ (i : Nat) (args : Args V) (gs0 : List (Arg V)),
    args.get o.name = bindResult o gs0 →
    (runItems n i items args).get o.name = bindResult o (gs0 ++ given items o) := by
  induction items with
  | nil => intro i args gs0 h; simpa [runItems, given] using h
  | cons it items ih =>
    intro i args gs0 h
    rw [runItems, ih (fun x hx => hg x (by simp [hx])) _ _ _ (run_option n i it args o hpos (hg it (by simp)) gs0 h)]
    simp [given]

/-- What a positional argument is bound to by its values. -/
def posArg (p : PosDef V) (vs : List V) : Arg V :=
  if p.extra = some 0 then (match vs with | v :: _ => .val v | [] => .many []) else .many (vs.map .val)

theorem runItems_positional (off : V) (n : Node V) (hnd : (n.positional.map (·.name)).Nodup) (k : Nat) (p : PosDef V)
    (hp : n.positional[k]? = some p) (items : List (Item V))
    (hg : ∀ it ∈ items, ∀ q ∈ it.gives, q.1.name ≠ p.name) : ∀ (i : Nat) (last : Bool) (args : Args V),
    ItemsOk off n i items last →
    (runItems n i items args).get p.name =
      if k < i then args.get p.name else
      match (posGiven items)[k - i]? with
      | some vs => some (posArg p vs)
      | none => args.get p.name := by
  induction items with
  | nil => intro i last args _; simp [runItems, posGiven]
  | cons it items ih =>
    intro i last args hok
    have ih' := ih (fun x hx => hg x (by simp [hx]))
    cases it with
    | pos vs =>
      rw [ItemsOk] at hok
      obtain ⟨⟨p', a, w, vs', hp', hf, rfl, _⟩, hrec⟩ := hok
      simp only [runItems, Item.next]
      rw [ih' _ _ _ hrec]
      simp only [Item.run, hp', posGiven]
      by_cases hki : k = i
      · subst hki
        rw [hp] at hp'
        cases hp'
        simp [Dict.get_put, posArg]
        rfl
      · have hne : p'.name ≠ p.name := by
          intro e
          have hk' := (List.getElem?_eq_some_iff.1 hp)
          have hi' := (List.getElem?_eq_some_iff.1 hp')
          obtain ⟨hk1, hk2⟩ := hk'
          obtain ⟨hi1, hi2⟩ := hi'
          have h1 : (n.positional.map (·.name))[i]? = some p.name := by simp [hp', e]
          have h2 : (n.positional.map (·.name))[k]? = some p.name := by simp [hp]
          exact hki (((List.getElem?_inj (by simpa using hi1) hnd).1 (by rw [h1, h2])).symm)
        by_cases hlt : k < i
        · have h1 : k < i + 1 := by omega
          simp [hlt, h1, Dict.get_put, hne]
        · have h1 : ¬ k < i + 1 := by omega
          have h2 : k - i = (k - (i + 1)) + 1 := by omega
          simp only [hlt, h1, if_false, Dict.get_put, hne, h2, List.getElem?_cons_succ]
    | long o u x =>
      rw [ItemsOk] at hok
      simp only [runItems, Item.next]
      rw [ih' _ _ _ hok.2.2.2.2.2]
      simp only [Item.run, posGiven]
      rw [bindAll_other p.name _ (hg _ (by simp))]
    | short fl =>
      rw [ItemsOk] at hok
      simp only [runItems, Item.next]
      rw [ih' _ _ _ hok.2.2]
      simp only [Item.run, posGiven]
      rw [bindAll_other p.name _ (hg _ (by simp))]
    | shortValue fl o c v eq w =>
      rw [ItemsOk] at hok
      simp only [runItems, Item.next]
      rw [ih' _ _ _ hok.2.2.2.2.2.2]
      simp only [Item.run, posGiven]
      rw [bindAll_other p.name _ (hg _ (by simp))]

/-! ### The end of a command -/

theorem finOptions_ok (os : List (OptDef V)) (hnd : (os.map (·.name)).Nodup) : ∀ (seen : List Text) (args : Args V),
    (∀ o ∈ os, args.get o.name = none → o.default ≠ none) →
    (∀ o ∈ os, args.get o.name ≠ none → ∀ g, o.mutex = some g → g ∉ seen) →
    os.Pairwise (fun o o' => ¬ (args.get o.name ≠ none ∧ args.get o'.name ≠ none ∧ o.mutex ≠ none ∧ o.mutex = o'.mutex)) →
    ∃ args', finOptions os seen args = .ok args' ∧
      (∀ o ∈ os, args'.get o.name = (args.get o.name).or o.default) ∧
      (∀ n, n ∉ os.map (·.name) → args'.get n = args.get n) := by
  induction os with
  | nil => intro seen args _ _ _; exact ⟨args, rfl, by simp, by simp⟩
  | cons o os ih =>
    intro seen args hdef hseen hpw
    simp only [List.map_cons, List.nodup_cons] at hnd
    rw [List.pairwise_cons] at hpw
    have hne : ∀ o' ∈ os, o.name ≠ o'.name := fun o' ho' e => hnd.1 (List.mem_map.2 ⟨o', ho', e.symm⟩)
    cases hg : args.get o.name with
    | none =>
      simp only [finOptions, Dict.has, hg, Option.isSome_none, Bool.false_eq_true, if_false]
      cases hd : o.default with
      | none => exact absurd hd (hdef o (by simp) hg)
      | some v =>
        have hother : ∀ o' ∈ os, (args.put o.name v).get o'.name = args.get o'.name := by
          intro o' ho'
          simp [Dict.get_put, hne o' ho']
        obtain ⟨args', h1, h2, h3⟩ := ih hnd.2 seen (args.put o.name v)
          (fun o' ho' => by rw [hother o' ho']; exact hdef o' (by simp [ho']))
          (fun o' ho' => by rw [hother o' ho']; exact hseen o' (by simp [ho']))
          (hpw.2.imp_of_mem (fun {a b} ha hb hab => by rw [hother a ha, hother b hb]; exact hab))
        refine ⟨args', by simpa [defaultOf] using h1, ?_, ?_⟩
        · intro o' ho'
          rcases List.mem_cons.1 ho' with rfl | ho'
          · rw [h3 _ hnd.1, hg, hd]
            simp [Dict.get_put]
          · rw [h2 o' ho', hother o' ho']
        · intro n hn
          simp at hn
          rw [h3 n (by simpa using hn.2)]
          have : ¬ o.name = n := fun e => hn.1 e.symm
          simp [Dict.get_put, this]
    | some x =>
      simp only [finOptions, Dict.has, hg, Option.isSome_some, if_true]
      cases hm : o.mutex with
      | none =>
        obtain ⟨args', h1, h2, h3⟩ := ih hnd.2 seen args (fun o' ho' => hdef o' (by simp [ho']))
          (fun o' ho' => hseen o' (by simp [ho'])) hpw.2
        refine ⟨args', h1, ?_, ?_⟩
        · intro o' ho'
          rcases List.mem_cons.1 ho' with rfl | ho'
          · rw [h3 _ hnd.1, hg]; rfl
          · exact h2 o' ho'
        · intro n hn
          simp at hn
          exact h3 n (by simpa using hn.2)
      | some g =>
        have hgs : g ∉ seen := hseen o (by simp) (by rw [hg]; simp) g hm
        simp only [hgs, if_false]
        obtain ⟨args', h1, h2, h3⟩ := ih hnd.2 (g :: seen) args (fun o' ho' => hdef o' (by simp [ho']))
          (fun o' ho' hget g' hg' => by
            simp only [List.mem_cons, not_or]
            refine ⟨?_, hseen o' (by simp [ho']) hget g' hg'⟩
            rintro rfl
            exact hpw.1 o' ho' ⟨by rw [hg]; simp, hget, by rw [hm]; simp, by rw [hm, hg']⟩) hpw.2
        refine ⟨args', h1, ?_, ?_⟩
        · intro o' ho'
          rcases List.mem_cons.1 ho' with rfl | ho'
          · rw [h3 _ hnd.1, hg]; rfl
          · exact h2 o' ho'
        · intro n hn
          simp at hn
          exact h3 n (by simpa using hn.2)

theorem finOptions_inv (os : List (OptDef V)) (hnd : (os.map (·.name)).Nodup) : ∀ (seen : List Text) (args args' : Args V),
    finOptions os seen args = .ok args' →
    (∀ o ∈ os, args.get o.name = none → o.default ≠ none) ∧
    (∀ o ∈ os, args.get o.name ≠ none → ∀ g, o.mutex = some g → g ∉ seen) ∧
    os.Pairwise (fun o o' => ¬ (args.get o.name ≠ none ∧ args.get o'.name ≠ none ∧ o.mutex ≠ none ∧ o.mutex = o'.mutex)) := by
  induction os with
  | nil => intro seen args args' _; simp
  | cons o os ih =>
    intro seen args args' h
    simp only [List.map_cons, List.nodup_cons] at hnd
    have hne : ∀ o' ∈ os, o.name ≠ o'.name := fun o' ho' e => hnd.1 (List.mem_map.2 ⟨o', ho', e.symm⟩)
    simp only [finOptions, Dict.has] at h
    cases hg : args.get o.name with
    | none =>
      simp only [hg, Option.isSome_none, Bool.false_eq_true, if_false] at h
      cases hd : o.default with
      | none => simp [hd, defaultOf] at h
      | some v =>
        simp [hd, defaultOf] at h
        have hother : ∀ o' ∈ os, (args.put o.name v).get o'.name = args.get o'.name := by
          intro o' ho'
          simp [Dict.get_put, hne o' ho']
        obtain ⟨h1, h2, h3⟩ := ih hnd.2 _ _ _ h
        refine ⟨?_, ?_, List.pairwise_cons.2 ⟨?_, ?_⟩⟩
        · intro o' ho'
          rcases List.mem_cons.1 ho' with rfl | ho'
          · simp [hd]
          · have := h1 o' ho'
            rwa [hother o' ho'] at this
        · intro o' ho' hget
          rcases List.mem_cons.1 ho' with rfl | ho'
          · exact absurd hg hget
          · exact h2 o' ho' (by rw [hother o' ho']; exact hget)
        · intro o' ho' hc
          exact hc.1 hg
        · exact h3.imp_of_mem (fun {a b} ha hb hab => by rw [hother a ha, hother b hb] at hab; exact hab)
    | some x =>
      simp only [hg, Option.isSome_some, if_true] at h
      cases hm : o.mutex with
      | none =>
        simp only [hm] at h
        obtain ⟨h1, h2, h3⟩ := ih hnd.2 _ _ _ h
        refine ⟨?_, ?_, List.pairwise_cons.2 ⟨?_, h3⟩⟩
        · intro o' ho' hget
          rcases List.mem_cons.1 ho' with rfl | ho'
          · rw [hg] at hget; simp at hget
          · exact h1 o' ho' hget
        · intro o' ho' hget g hg'
          rcases List.mem_cons.1 ho' with rfl | ho'
          · rw [hm] at hg'; simp at hg'
          · exact h2 o' ho' hget g hg'
        · intro o' ho' hc
          exact hc.2.2.1 hm
      | some g =>
        simp only [hm] at h
        split at h
        · simp at h
        · rename_i hgs
          obtain ⟨h1, h2, h3⟩ := ih hnd.2 _ _ _ h
          refine ⟨?_, ?_, List.pairwise_cons.2 ⟨?_, h3⟩⟩
          · intro o' ho' hget
            rcases List.mem_cons.1 ho' with rfl | ho'
            · rw [hg] at hget; simp at hget
            · exact h1 o' ho' hget
          · intro o' ho' hget g' hg'
            rcases List.mem_cons.1 ho' with rfl | ho'
            · rw [hm] at hg'; cases hg'; exact hgs
            · have := h2 o' ho' hget g' hg'
              simp at this
              exact this.2
          · intro o' ho' hc
            have := h2 o' ho' hc.2.1 g (by rw [← hc.2.2.2, hm])
            simp at this

theorem finPositional_ok (ps : List (PosDef V)) (hnd : (ps.map (·.name)).Nodup) : ∀ (args : Args V),
    (∀ p ∈ ps, p.default ≠ none) → ∃ args', finPositional ps args = .ok args' ∧
      (∀ p ∈ ps, args'.get p.name = p.default) ∧ (∀ n, n ∉ ps.map (·.name) → args'.get n = args.get n) := by
  induction ps with
  | nil => intro args _; exact ⟨args, rfl, by simp, by simp⟩
  | cons p ps ih =>
    intro args h
    simp only [List.map_cons, List.nodup_cons] at hnd
    cases hd : p.default with
    | none => exact absurd hd (h p (by simp))
    | some v =>
      obtain ⟨args', h1, h2, h3⟩ := ih hnd.2 (args.put p.name v) (fun q hq => h q (by simp [hq]))
      refine ⟨args', by simp [finPositional, defaultOf, hd, h1], ?_, ?_⟩
      · intro q hq
        rcases List.mem_cons.1 hq with rfl | hq
        · rw [h3 _ hnd.1, hd]; simp [Dict.get_put]
        · exact h2 q hq
      · intro n hn
        simp at hn
        rw [h3 n (by simpa using hn.2)]
        have : ¬ p.name = n := fun e => hn.1 e.symm
        simp [Dict.get_put, this]

theorem finPositional_inv (ps : List (PosDef V)) : ∀ (args args' : Args V), finPositional ps args = .ok args' →
    ∀ p ∈ ps, p.default ≠ none := by
  induction ps with
  | nil => intro args args' _; simp
  | cons p ps ih =>
    intro args args' h q hq
    simp only [finPositional] at h
    cases hd : p.default with
    | none => simp [hd, defaultOf] at h
    | some v =>
      simp only [hd, defaultOf] at h
      rcases List.mem_cons.1 hq with rfl | hq
      · simp [hd]
      · exact ih _ _ h q hq

/-! ### Commands -/

theorem namesApart_split (off : V) (n : Node V) (h : NamesApart off n) :
    ((helpOption off :: n.options).map (·.name)).Nodup ∧ (n.positional.map (·.name)).Nodup ∧
    ∀ o ∈ helpOption off :: n.options, ∀ p ∈ n.positional, p.name ≠ o.name := by
  unfold NamesApart at h
  rw [List.nodup_append] at h
  refine ⟨h.1, h.2.1, fun o ho p hp e => ?_⟩
  exact h.2.2 o.name (List.mem_map.2 ⟨o, ho, rfl⟩) p.name (List.mem_map.2 ⟨p, hp, rfl⟩) e.symm

theorem bindResult_none (o : OptDef V) (gs : List (Arg V)) : bindResult o gs = none ↔ gs = [] := by
  cases gs with
  | nil => simp [bindResult]
  | cons g gs =>
    simp only [bindResult]
    split <;> simp [List.getLast?_eq_none_iff]

theorem bindResult_or (o : OptDef V) (gs : List (Arg V)) : (bindResult o gs).or o.default = optionValue o gs := by
  cases gs with
  | nil => simp [bindResult, optionValue]
  | cons g gs =>
    simp only [bindResult, optionValue]
    split
    · simp
    · rw [List.getLast?_cons]; simp

theorem run_get_option (off : V) (n : Node V) (hn : NamesApart off n) (items : List (Item V)) (last : Bool)
    (hok : ItemsOk off n 0 items last) (o : OptDef V) (ho : o ∈ helpOption off :: n.options) :
    (runItems n 0 items []).get o.name = bindResult o (given items o) := by
  obtain ⟨h1, h2, h3⟩ := namesApart_split off n hn
  have := runItems_option n o (fun p hp => h3 o ho p hp) items
    (fun it hit p hp e => name_inj _ _ h1 p.1 (gives_declared off n items 0 last hok it hit p hp) o ho e) 0 [] [] rfl
  simpa using this

theorem posGiven_ne (off : V) (n : Node V) (items : List (Item V)) : ∀ (i : Nat) (last : Bool),
    ItemsOk off n i items last → ∀ vs ∈ posGiven items, vs ≠ [] := by
  induction items with
  | nil => intro i last _ vs hvs; simp [posGiven] at hvs
  | cons it items ih =>
    intro i last h vs hvs
    cases it with
    | pos ws =>
      rw [ItemsOk] at h
      obtain ⟨⟨p, a, w, vs', _, _, rfl, _⟩, hrec⟩ := h
      simp only [posGiven, List.mem_cons] at hvs
      rcases hvs with rfl | hvs
      · simp
      · exact ih _ _ hrec vs hvs
    | long o u x => rw [ItemsOk] at h; exact ih _ _ h.2.2.2.2.2 vs (by simpa [posGiven] using hvs)
    | short fl => rw [ItemsOk] at h; exact ih _ _ h.2.2 vs (by simpa [posGiven] using hvs)
    | shortValue fl o c v eq w => rw [ItemsOk] at h; exact ih _ _ h.2.2.2.2.2.2 vs (by simpa [posGiven] using hvs)

theorem run_get_positional (off : V) (n : Node V) (hn : NamesApart off n) (items : List (Item V)) (last : Bool)
    (hok : ItemsOk off n 0 items last) (k : Nat) (p : PosDef V) (hp : n.positional[k]? = some p) :
    (runItems n 0 items []).get p.name = (posGiven items)[k]?.map (posArg p) := by
  obtain ⟨h1, h2, h3⟩ := namesApart_split off n hn
  rw [runItems_positional off n h2 k p hp items
    (fun it hit q hq e => h3 q.1 (gives_declared off n items 0 last hok it hit q hq) p (List.mem_of_getElem? hp) e.symm)
    0 last [] hok]
  simp
  cases (posGiven items)[k]? <;> rfl

/-- The end of a command succeeds when it is complete, and binds what was given and the defaults. -/
theorem finalize_ok (off : V) (n : Node V) (hn : NamesApart off n) (items : List (Item V)) (last : Bool)
    (hok : ItemsOk off n 0 items last) (hc : Complete off n items) :
    ∃ args, finalize off n (nextItems 0 items) (runItems n 0 items []) = .ok args ∧ Bound off n items args := by
  obtain ⟨h1, h2, h3⟩ := namesApart_split off n hn
  have hget := run_get_option off n hn items last hok
  have hpos := run_get_positional off n hn items last hok
  have hlen := posGiven_next items 0
  obtain ⟨hc1, hc2, hc3⟩ := hc
  have hmut : (helpOption off :: n.options).Pairwise (fun o o' => ¬ ((runItems n 0 items []).get o.name ≠ none ∧
      (runItems n 0 items []).get o'.name ≠ none ∧ o.mutex ≠ none ∧ o.mutex = o'.mutex)) := by
    rw [List.pairwise_cons]
    refine ⟨fun o' _ h => h.2.2.1 rfl, hc3.imp_of_mem (fun {a b} ha hb hab h => hab ?_)⟩
    rw [hget a (by simp [ha]), hget b (by simp [hb]), Ne, Ne, bindResult_none, bindResult_none] at h
    exact h
  obtain ⟨args1, ha1, ha2, ha3⟩ := finOptions_ok (helpOption off :: n.options) h1 [] (runItems n 0 items [])
    (fun o ho hno hd => hc1 o ho hd ((bindResult_none o _).1 (by rw [← hget o ho]; exact hno)))
    (fun _ _ _ _ _ => by simp) hmut
  have hnd : ((n.positional.drop (nextItems 0 items)).map (·.name)).Nodup := by
    rw [List.map_drop]
    exact h2.sublist (List.drop_sublist _ _)
  obtain ⟨args2, hb1, hb2, hb3⟩ := finPositional_ok (n.positional.drop (nextItems 0 items)) hnd args1 (by
    intro p hp hd
    obtain ⟨k, hk⟩ := List.mem_iff_getElem?.1 hp
    rw [List.getElem?_drop] at hk
    have := hc2 _ p hk hd
    omega)
  refine ⟨args2, by simp [finalize, ha1, hb1], ?_, ?_⟩
  · intro o ho
    rw [hb3, ha2 o ho, hget o ho, bindResult_or]
    intro hmem
    obtain ⟨p, hp, he⟩ := List.mem_map.1 hmem
    exact h3 o ho p (List.mem_of_mem_drop hp) he
  · intro k p hp
    have hno : p.name ∉ (helpOption off :: n.options).map (·.name) := by
      intro hmem
      obtain ⟨o, ho, he⟩ := List.mem_map.1 hmem
      exact h3 o ho p (List.mem_of_getElem? hp) he.symm
    by_cases hk : nextItems 0 items ≤ k
    · have hm : p ∈ n.positional.drop (nextItems 0 items) :=
        List.mem_iff_getElem?.2 ⟨k - nextItems 0 items, by rw [List.getElem?_drop, ← hp]; congr 1; omega⟩
      rw [hb2 p hm]
      have : (posGiven items)[k]? = none := by simp; omega
      rw [this]
      rfl
    · have hnm : p.name ∉ (n.positional.drop (nextItems 0 items)).map (·.name) := by
        intro hmem
        obtain ⟨q, hq, he⟩ := List.mem_map.1 hmem
        obtain ⟨j, hj⟩ := List.mem_iff_getElem?.1 hq
        rw [List.getElem?_drop] at hj
        have e1 : (n.positional.map (·.name))[nextItems 0 items + j]? = some p.name := by simp [hj, he]
        have e2 : (n.positional.map (·.name))[k]? = some p.name := by simp [hp]
        have hlt : k < (n.positional.map (·.name)).length := by
          have := (List.getElem?_eq_some_iff.1 e2).1
          exact this
        have := (List.getElem?_inj hlt h2).1 (by rw [e1, e2])
        omega
      rw [hb3 _ hnm, ha3 _ hno, hpos k p hp]
      have hlt : k < (posGiven items).length := by omega
      rw [List.getElem?_eq_getElem hlt]
      have hne := posGiven_ne off n items 0 last hok _ (List.getElem_mem hlt)
      generalize (posGiven items)[k] = vs at hne
      cases vs with
      | nil => exact absurd rfl hne
      | cons v vs =>
        simp only [Option.map_some, posArg, positionalValue]
        split <;> simp

/-- A command whose end succeeds is complete. -/
theorem finalize_inv (off : V) (n : Node V) (hn : NamesApart off n) (items : List (Item V)) (last : Bool)
    (hok : ItemsOk off n 0 items last) (args : Args V)
    (h : finalize off n (nextItems 0 items) (runItems n 0 items []) = .ok args) : Complete off n items := by
  obtain ⟨h1, h2, h3⟩ := namesApart_split off n hn
  have hget := run_get_option off n hn items last hok
  have hlen := posGiven_next items 0
  simp only [finalize] at h
  split at h
  · simp at h
  · rename_i args1 hf
    obtain ⟨i1, i2, i3⟩ := finOptions_inv _ h1 _ _ _ hf
    have j := finPositional_inv _ _ _ h
    refine ⟨?_, ?_, ?_⟩
    · intro o ho hd hg
      refine i1 o ho ?_ hd
      rw [hget o ho, hg]
      rfl
    · intro k p hp hd
      apply Classical.byContradiction
      intro hk
      refine j p (List.mem_iff_getElem?.2 ⟨k - nextItems 0 items, ?_⟩) hd
      rw [List.getElem?_drop, ← hp]
      congr 1
      omega
    · refine (List.pairwise_cons.1 i3).2.imp_of_mem (fun {a b} ha hb hab h => hab ?_)
      rw [hget a (by simp [ha]), hget b (by simp [hb]), Ne, Ne, bindResult_none, bindResult_none]
      exact h

theorem step_sub (off : V) (s : St V) (a : Text) (rest : List Text) (sub : Node V) (ha : PlainArg a)
    (hs : Dict.get s.node.children a = some sub) :
    step off s a rest = match finalize off s.node s.index s.args with
      | .error e => .error e
      | .ok args => .ok { node := sub, path := s.path ++ [a], parents := (s.path, args) :: s.parents, buf := rest } := by
  simp only [step, ha.2.1, ha.2.2, hs, if_false]
  cases finalize off s.node s.index s.args <;> rfl

theorem loop_nil (off : V) (s : St V) (h : s.buf = []) (k : Nat) : loop off k s = finish off s := by
  cases k <;> simp [loop, h]

theorem line_ok (off : V) (subs : List (Text × List (Item V))) : ∀ (n : Node V) (items : List (Item V))
    (path : List Text) (parents : List (List Text × Args V)), LineOk off n items subs → LineComplete off n items subs →
    ∃ res, loop off (size (renderLine items subs))
      { node := n, path := path, parents := parents, buf := renderLine items subs } = .ok (parents.reverse ++ res) ∧
      LineBound off n path items subs res := by
  induction subs with
  | nil =>
    intro n items path parents h hc
    obtain ⟨h1, h2, h3⟩ := h
    have e := loop_items off n items 0 true
      { node := n, path := path, parents := parents, buf := renderLine items [] } [] h2 (fun _ => rfl) rfl rfl
      (by simp [renderLine])
    simp only at e
    rw [e, loop_nil off _ rfl]
    obtain ⟨args, ha, hb⟩ := finalize_ok off n h1 items true h2 hc
    refine ⟨[(path, args)], ?_, args, rfl, hb⟩
    cases hcmd : n.cmd with
    | none => exact absurd hcmd h3
    | some c => simp [finish, hcmd, ha]
  | cons q subs ih =>
    obtain ⟨name, items'⟩ := q
    intro n items path parents h hc
    obtain ⟨h1, h2, h3, sub, hsub, h4⟩ := h
    have e := loop_items off n items 0 false
      { node := n, path := path, parents := parents, buf := renderLine items ((name, items') :: subs) }
      (name :: renderLine items' subs) h2 (by simp) rfl rfl (by simp [renderLine])
    simp only at e
    rw [e]
    obtain ⟨args, ha, hb⟩ := finalize_ok off n h1 items false h2 hc.1
    obtain ⟨res, hr, hl⟩ := ih sub items' (path ++ [name]) ((path, args) :: parents) h4 (hc.2 sub hsub)
    refine ⟨(path, args) :: res, ?_, args, res, sub, rfl, hb, hsub, hl⟩
    cases name with
    | nil => exact absurd rfl h3.1
    | cons c name =>
      have hst := step_sub off { node := n, path := path, args := runItems n 0 items [], index := nextItems 0 items, parents := parents, buf := (c :: name) :: renderLine items' subs } (c :: name) (renderLine items' subs) sub h3 hsub
      simp only [ha] at hst
      rw [loop_next off _ _ c name (renderLine items' subs) rfl hst]
      simp only
      rw [hr]
      simp

theorem line_inv (off : V) (subs : List (Text × List (Item V))) : ∀ (n : Node V) (items : List (Item V))
    (path : List Text) (parents : List (List Text × Args V)) (res : List (List Text × Args V)), LineOk off n items subs →
    loop off (size (renderLine items subs))
      { node := n, path := path, parents := parents, buf := renderLine items subs } = .ok res →
    LineComplete off n items subs := by
  induction subs with
  | nil =>
    intro n items path parents res h hr
    obtain ⟨h1, h2, h3⟩ := h
    have e := loop_items off n items 0 true
      { node := n, path := path, parents := parents, buf := renderLine items [] } [] h2 (fun _ => rfl) rfl rfl
      (by simp [renderLine])
    simp only at e
    rw [e, loop_nil off _ rfl] at hr
    simp only [finish] at hr
    split at hr
    · simp at hr
    · split at hr
      · simp at hr
      · rename_i hf
        exact finalize_inv off n h1 items true h2 _ hf
  | cons q subs ih =>
    obtain ⟨name, items'⟩ := q
    intro n items path parents res h hr
    obtain ⟨h1, h2, h3, sub, hsub, h4⟩ := h
    have e := loop_items off n items 0 false
      { node := n, path := path, parents := parents, buf := renderLine items ((name, items') :: subs) }
      (name :: renderLine items' subs) h2 (by simp) rfl rfl (by simp [renderLine])
    simp only at e
    rw [e] at hr
    cases name with
    | nil => exact absurd rfl h3.1
    | cons c name =>
      have hst := step_sub off { node := n, path := path, args := runItems n 0 items [], index := nextItems 0 items, parents := parents, buf := (c :: name) :: renderLine items' subs } (c :: name) (renderLine items' subs) sub h3 hsub
      simp only at hst
      cases hf : finalize off n (nextItems 0 items) (runItems n 0 items []) with
      | error er =>
        rw [hf] at hst
        have := loop_error off { node := n, path := path, args := runItems n 0 items [], index := nextItems 0 items, parents := parents, buf := (c :: name) :: renderLine items' subs } er c name (renderLine items' subs) rfl hst
        simp only at this
        rw [this] at hr
        simp at hr
      | ok args =>
        rw [hf] at hst
        have := loop_next off _ _ c name (renderLine items' subs) rfl hst
        simp only at this
        rw [this] at hr
        refine ⟨finalize_inv off n h1 items false h2 args hf, fun sub' hs' => ?_⟩
        rw [hsub] at hs'
        cases hs'
        exact ih sub items' _ _ res h4 hr

/-! ### What follows a line -/

theorem line_reaches (off : V) (subs : List (Text × List (Item V))) : ∀ (n : Node V) (items : List (Item V))
    (path : List Text) (parents : List (List Text × Args V)) (rest : List Text) (m : Node V) (k : Nat),
    LineOpen off n items subs m k →
    (∃ e, loop off (size (renderLine items subs ++ rest))
      { node := n, path := path, parents := parents, buf := renderLine items subs ++ rest } = .error e) ∨
    ∃ path' args parents', loop off (size (renderLine items subs ++ rest))
      { node := n, path := path, parents := parents, buf := renderLine items subs ++ rest } =
      loop off (size rest) { node := m, path := path', args := args, index := k, parents := parents', buf := rest } := by
  induction subs with
  | nil =>
    intro n items path parents rest m k h
    obtain ⟨h2, rfl, rfl⟩ := h
    have e := loop_items off m items 0 false
      { node := m, path := path, parents := parents, buf := renderLine items [] ++ rest } rest h2 (by simp) rfl rfl
      (by simp [renderLine])
    simp only at e
    right
    rw [e, posGiven_next]
    rw [Nat.zero_add]
    exact ⟨_, _, _, rfl⟩
  | cons q subs ih =>
    obtain ⟨name, items'⟩ := q
    intro n items path parents rest m k h
    obtain ⟨h2, h3, sub, hsub, h4⟩ := h
    have e := loop_items off n items 0 false
      { node := n, path := path, parents := parents, buf := renderLine items ((name, items') :: subs) ++ rest }
      (name :: (renderLine items' subs ++ rest)) h2 (by simp) rfl rfl (by simp [renderLine])
    simp only at e
    rw [e]
    cases name with
    | nil => exact absurd rfl h3.1
    | cons c name =>
      have hst := step_sub off { node := n, path := path, args := runItems n 0 items [], index := nextItems 0 items, parents := parents, buf := (c :: name) :: (renderLine items' subs ++ rest) } (c :: name) (renderLine items' subs ++ rest) sub h3 hsub
      simp only at hst
      cases hf : finalize off n (nextItems 0 items) (runItems n 0 items []) with
      | error er =>
        rw [hf] at hst
        left
        exact ⟨er, loop_error off { node := n, path := path, args := runItems n 0 items [], index := nextItems 0 items, parents := parents, buf := (c :: name) :: (renderLine items' subs ++ rest) } er c name (renderLine items' subs ++ rest) rfl hst⟩
      | ok args =>
        rw [hf] at hst
        have := loop_next off _ _ c name (renderLine items' subs ++ rest) rfl hst
        simp only at this
        rw [this]
        exact ih sub items' (path ++ [c :: name]) ((path, args) :: parents) rest m k h4

/-! ### Fields -/

theorem findField_declared (fs : List (FieldDef V)) (f : FieldDef V) (name : Text) (h : FieldDeclared fs f name) :
    findField fs name = some f := by
  obtain ⟨hm, hn, hu⟩ := h
  unfold findField
  cases hf : fs.reverse.find? (fun o => decide (name ∈ o.names)) with
  | some f' =>
    have h1 := List.mem_of_find?_eq_some hf
    have h2 := List.find?_some hf
    simp at h1 h2
    rw [hu f' h1 h2]
  | none =>
    rw [List.find?_eq_none] at hf
    have := hf f (by simpa using hm)
    simp [hn] at this

theorem size_append (l l' : List Text) : size (l ++ l') = size l + size l' := by
  induction l with
  | nil => simp [size]
  | cons a l ih => rw [List.cons_append, size_cons, size_cons, ih]; omega

theorem readValue_use (r : Reader V) (u : Use) (x : Arg V) (hn : NameOk u.name) (hp : u.name.head? = some '+')
    (hm : u.Means r x) (rest : List Text) :
    ∃ a rest', u.render ++ rest = a :: rest' ∧ a.head? = some '+' ∧
      (optionKey a rest').1 = u.name ∧ readValue r (optionKey a rest').2 = .ok (x, rest) := by
  cases u with
  | flag nm =>
    cases r with
    | text conv => simp [Use.Means] at hm
    | flag =>
      simp [Use.Means] at hm
      subst hm
      simp only [Use.name] at hn hp ⊢
      refine ⟨nm, rest, rfl, hp, ?_⟩
      rw [optionKey_name nm hn]
      exact ⟨rfl, rfl⟩
  | sep nm v =>
    cases r with
    | flag => simp [Use.Means] at hm
    | text conv =>
      simp only [Use.Means] at hm
      obtain ⟨w, hw, rfl⟩ := hm
      simp only [Use.name] at hn hp ⊢
      refine ⟨nm, v :: rest, rfl, hp, ?_⟩
      rw [optionKey_name nm hn]
      exact ⟨rfl, by simp [readValue, hw]⟩
  | eq nm v =>
    cases r with
    | flag => simp [Use.Means] at hm
    | text conv =>
      simp only [Use.Means] at hm
      obtain ⟨hv, htr, w, hw, rfl⟩ := hm
      simp only [Use.name] at hn hp ⊢
      refine ⟨nm ++ '=' :: v, rest, rfl, ?_, ?_⟩
      · cases nm with
        | nil => simp at hp
        | cons c nm => exact hp
      · rw [optionKey_eq nm v hn hv htr]
        exact ⟨rfl, by simp [readValue, hw]⟩

theorem fieldLoop_uses (fs : List (FieldDef V)) (us : List (FieldDef V × Use × Arg V)) (h : FieldUsesOk fs us)
    (rest : List Text) (hr : ∀ a, rest.head? = some a → a.head? ≠ some '+') :
    ∀ (n : Nat) (acc : List (Text × Arg V)), size (us.flatMap (fun q => q.2.1.render) ++ rest) ≤ n →
    fieldLoop fs n acc (us.flatMap (fun q => q.2.1.render) ++ rest) =
      .ok (us.foldl (fun acc q => Dict.put acc q.1.name q.2.2) acc, rest) := by
  induction us with
  | nil =>
    intro n acc hn
    cases n with
    | zero => simp [fieldLoop]
    | succ n =>
      cases rest with
      | nil => simp [fieldLoop]
      | cons a rest => simp [fieldLoop, hr a rfl]
  | cons q us ih =>
    intro n acc hn
    obtain ⟨h1, h2, h3, h4⟩ := h q (by simp)
    obtain ⟨a, rest', e1, e2, e3, e4⟩ := readValue_use q.1.reader q.2.1 q.2.2 h2 h3 h4
      (us.flatMap (fun q => q.2.1.render) ++ rest)
    have e5 : (q :: us).flatMap (fun q => q.2.1.render) ++ rest = a :: rest' := by
      rw [← e1]; simp
    have hsz : size (us.flatMap (fun q => q.2.1.render) ++ rest) < size (a :: rest') := by
      rw [← e1, size_append q.2.1.render]
      have : 0 < size q.2.1.render := by
        cases q.2.1 <;> simp [Use.render, size_cons] <;> omega
      omega
    rw [e5] at hn ⊢
    cases n with
    | zero => omega
    | succ n =>
      simp only [fieldLoop, e2, if_true, e3, findField_declared fs q.1 _ h1, e4]
      rw [ih (fun x hx => h x (by simp [hx])) n _ (by omega)]
      rfl

theorem foldl_fields (us : List (FieldDef V × Use × Arg V)) (n : Text) : ∀ acc : List (Text × Arg V),
    Dict.get (us.foldl (fun acc q => Dict.put acc q.1.name q.2.2) acc) n =
      (((us.filter (fun q => decide (q.1.name = n))).map (·.2.2)).getLast?).or (Dict.get acc n) := by
  induction us with
  | nil => intro acc; simp
  | cons q us ih =>
    intro acc
    rw [List.foldl_cons, ih]
    by_cases e : q.1.name = n
    · simp only [e, decide_true, List.filter_cons_of_pos, List.map_cons, Dict.get_put, if_true]
      rw [List.getLast?_cons]
      cases ((us.filter (fun q => decide (q.1.name = n))).map (·.2.2)).getLast? <;> simp
    · simp [e, Dict.get_put]

theorem fieldDefaults_ok (fs : List (FieldDef V)) (hnd : (fs.map (·.name)).Nodup) : ∀ acc : List (Text × Arg V),
    (∀ f ∈ fs, f.default = none → Dict.get acc f.name ≠ none) →
    ∃ acc', fieldDefaults fs acc = .ok acc' ∧ (∀ f ∈ fs, Dict.get acc' f.name = (Dict.get acc f.name).or f.default) ∧
      (∀ n, n ∉ fs.map (·.name) → Dict.get acc' n = Dict.get acc n) := by
  induction fs with
  | nil => intro acc _; exact ⟨acc, rfl, by simp, by simp⟩
  | cons f fs ih =>
    intro acc h
    simp only [List.map_cons, List.nodup_cons] at hnd
    have hne : ∀ f' ∈ fs, f.name ≠ f'.name := fun f' hf' e => hnd.1 (List.mem_map.2 ⟨f', hf', e.symm⟩)
    cases hg : Dict.get acc f.name with
    | some x =>
      obtain ⟨acc', h1, h2, h3⟩ := ih hnd.2 acc (fun f' hf' => h f' (by simp [hf']))
      refine ⟨acc', by simp [fieldDefaults, Dict.has, hg, h1], ?_, ?_⟩
      · intro f' hf'
        rcases List.mem_cons.1 hf' with rfl | hf'
        · rw [h3 _ hnd.1, hg]; rfl
        · exact h2 f' hf'
      · intro n hn
        simp at hn
        exact h3 n (by simpa using hn.2)
    | none =>
      cases hd : f.default with
      | none => exact absurd hg (h f (by simp) hd)
      | some v =>
        have hother : ∀ f' ∈ fs, Dict.get (Dict.put acc f.name v) f'.name = Dict.get acc f'.name := by
          intro f' hf'
          simp [Dict.get_put, hne f' hf']
        obtain ⟨acc', h1, h2, h3⟩ := ih hnd.2 (Dict.put acc f.name v)
          (fun f' hf' => by rw [hother f' hf']; exact h f' (by simp [hf']))
        refine ⟨acc', by simp [fieldDefaults, Dict.has, hg, hd, h1], ?_, ?_⟩
        · intro f' hf'
          rcases List.mem_cons.1 hf' with rfl | hf'
          · rw [h3 _ hnd.1, hg, hd]; simp [Dict.get_put]
          · rw [h2 f' hf', hother f' hf']
        · intro n hn
          simp at hn
          rw [h3 n (by simpa using hn.2)]
          have : ¬ f.name = n := fun e => hn.1 e.symm
          simp [Dict.get_put, this]

theorem fieldDefaults_inv (fs : List (FieldDef V)) (hnd : (fs.map (·.name)).Nodup) : ∀ acc acc' : List (Text × Arg V),
    fieldDefaults fs acc = .ok acc' → ∀ f ∈ fs, f.default = none → Dict.get acc f.name ≠ none := by
  induction fs with
  | nil => intro acc acc' _ f hf; simp at hf
  | cons f fs ih =>
    intro acc acc' h f' hf' hd'
    simp only [List.map_cons, List.nodup_cons] at hnd
    have hne : ∀ f' ∈ fs, f.name ≠ f'.name := fun f' hf' e => hnd.1 (List.mem_map.2 ⟨f', hf', e.symm⟩)
    simp only [fieldDefaults, Dict.has] at h
    cases hg : Dict.get acc f.name with
    | some x =>
      simp [hg] at h
      rcases List.mem_cons.1 hf' with rfl | hf'
      · simp [hg]
      · exact ih hnd.2 _ _ h f' hf' hd'
    | none =>
      simp [hg] at h
      cases hd : f.default with
      | none => simp [hd] at h
      | some v =>
        simp [hd] at h
        rcases List.mem_cons.1 hf' with rfl | hf'
        · rw [hd] at hd'; simp at hd'
        · have := ih hnd.2 _ _ h f' hf' hd'
          simpa [Dict.get_put, hne f' hf'] using this

end Cli
end Pkm
