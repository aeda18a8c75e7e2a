import Verif.Markers.Lemmas
set_option linter.unusedVariables false
set_option linter.unusedSimpArgs false
/-
Expressions as chains of pieces joined by `and` and `or`, in the order in which they are written.
-/
namespace Pkm.Markers

/-- A piece and the word before it: true for `and`. -/
abbrev Link := Bool × Piece

/-- The text of the links of a chain. -/
def linksText : List Link → Text
  | [] => []
  | (true, p) :: r => 'a' :: 'n' :: 'd' :: (p.text ++ linksText r)
  | (false, p) :: r => 'o' :: 'r' :: (p.text ++ linksText r)

/-- Put a piece at the front of the first group. -/
def consHead (p : Piece) : List (List Piece) → List (List Piece)
  | [] => [[p]]
  | g :: gs => (p :: g) :: gs

/-- The groups of a chain. -/
def groupsOf : Piece → List Link → List (List Piece)
  | p, [] => [[p]]
  | p, (true, q) :: r => consHead p (groupsOf q r)
  | p, (false, q) :: r => [p] :: groupsOf q r

theorem groupsOf_cons (p : Piece) (r : List Link) :
    ∃ g gs, groupsOf p r = (p :: g) :: gs := by
  match r with
  | [] => exact ⟨[], [], rfl⟩
  | (true, q) :: r =>
    obtain ⟨g, gs, h⟩ := groupsOf_cons q r
    exact ⟨q :: g, gs, by simp [groupsOf, h, consHead]⟩
  | (false, q) :: r => exact ⟨[], _, rfl⟩

theorem groupsOf_text (r : List Link) : ∀ p, orText (groupsOf p r) = p.text ++ linksText r := by
  induction r with
  | nil => intro p; simp [groupsOf, orText, andText, linksText]
  | cons x r ih =>
    intro p
    obtain ⟨b, q⟩ := x
    obtain ⟨g, gs, h⟩ := groupsOf_cons q r
    have hq := ih q
    cases b with
    | true =>
      rw [h] at hq
      simp only [groupsOf, h, consHead, linksText]
      cases gs with
      | nil =>
        simp only [orText, andText] at hq ⊢
        rw [hq]
      | cons g' gs' =>
        simp only [orText, andText, List.append_assoc, List.cons_append] at hq ⊢
        rw [hq]
    | false =>
      simp only [groupsOf, linksText]
      rw [← hq, h]
      simp [orText, andText]

theorem groupsOf_flatten (r : List Link) : ∀ p, (groupsOf p r).flatten = p :: r.map (·.2) := by
  induction r with
  | nil => intro p; simp [groupsOf]
  | cons x r ih =>
    intro p
    obtain ⟨b, q⟩ := x
    obtain ⟨g, gs, h⟩ := groupsOf_cons q r
    have hq := ih q
    cases b with
    | true =>
      rw [h] at hq
      simp only [groupsOf, h, consHead]
      simp at hq ⊢
      exact hq
    | false => simp [groupsOf, hq]

theorem piecesOk_iff (ps : List Piece) : piecesOk ps ↔ ∀ p, p ∈ ps → p.Ok := by
  induction ps with
  | nil => simp [piecesOk]
  | cons p ps ih => simp [piecesOk, ih]

theorem groupsOk_iff (gs : List (List Piece)) :
    groupsOk gs ↔ (∀ g, g ∈ gs → g ≠ []) ∧ ∀ p, p ∈ gs.flatten → p.Ok := by
  induction gs with
  | nil => simp [groupsOk]
  | cons g gs ih =>
    simp only [groupsOk, piecesOk_iff, ih, List.mem_cons, forall_eq_or_imp, List.flatten_cons,
      List.mem_append]
    constructor
    · rintro ⟨h1, h2, h3, h4⟩
      exact ⟨⟨h1, h3⟩, fun p hp => hp.elim (h2 p) (h4 p)⟩
    · rintro ⟨⟨h1, h3⟩, h⟩
      exact ⟨h1, fun p hp => h p (Or.inl hp), h3, fun p hp => h p (Or.inr hp)⟩

theorem groupsOf_ne (r : List Link) : ∀ p g, g ∈ groupsOf p r → g ≠ [] := by
  induction r with
  | nil => intro p g hg; simp [groupsOf] at hg; simp [hg]
  | cons x r ih =>
    intro p g hg
    obtain ⟨b, q⟩ := x
    cases b with
    | true =>
      obtain ⟨g', gs, h⟩ := groupsOf_cons q r
      have hq := ih q
      simp only [groupsOf, h, consHead, List.mem_cons] at hg hq
      rcases hg with rfl | hg
      · simp
      · exact hq g (Or.inr hg)
    | false =>
      simp only [groupsOf, List.mem_cons] at hg
      rcases hg with rfl | hg
      · simp
      · exact ih q g hg

/-- Every expression with non-empty groups is the expression of a chain. -/
theorem groupsOf_surj (gs : List (List Piece)) (h : gs ≠ []) (hne : ∀ g, g ∈ gs → g ≠ []) :
    ∃ p r, groupsOf p r = gs := by
  induction gs with
  | nil => exact absurd rfl h
  | cons g gs ih =>
    -- a group, then links
    have group : ∀ (g : List Piece) (p : Piece) (gs : List (List Piece)) (r : List Link),
        (groupsOf p r = [p] :: gs) → ∀ g', ∃ r', groupsOf p r' = (p :: g') :: gs := by
      intro g p gs r hr g'
      induction g' generalizing p r with
      | nil => exact ⟨r, hr⟩
      | cons q g' ih' =>
        -- the same tail after `q`
        have hq : ∃ r2, groupsOf q r2 = [q] :: gs := by
          match r, hr with
          | [], hr => simp [groupsOf] at hr; subst hr; exact ⟨[], rfl⟩
          | (true, x) :: r, hr =>
            obtain ⟨a, b, hx⟩ := groupsOf_cons x r
            simp [groupsOf, hx, consHead] at hr
          | (false, x) :: r, hr =>
            simp [groupsOf] at hr
            exact ⟨(false, x) :: r, by simp [groupsOf, hr]⟩
        obtain ⟨r2, hr2⟩ := hq
        obtain ⟨r3, hr3⟩ := ih' q r2 hr2
        exact ⟨(true, q) :: r3, by simp [groupsOf, hr3, consHead]⟩
    cases g with
    | nil => exact absurd rfl (hne [] (by simp))
    | cons p g =>
      have hbase : ∃ r, groupsOf p r = [p] :: gs := by
        cases gs with
        | nil => exact ⟨[], rfl⟩
        | cons g' gs' =>
          obtain ⟨q, r, hr⟩ := ih (by simp) (fun x hx => hne x (by simp at hx ⊢; right; exact hx))
          exact ⟨(false, q) :: r, by simp [groupsOf, hr]⟩
      obtain ⟨r, hr⟩ := hbase
      obtain ⟨r', hr'⟩ := group [] p gs r hr g
      exact ⟨p, r', hr'⟩

/-! ### values -/

/-- `a and b`. -/
def andV (a b : Except MErr Bool) : Except MErr Bool :=
  match a with
  | .ok true => b
  | r => r

theorem andV_assoc (a b c : Except MErr Bool) : andV (andV a b) c = andV a (andV b c) := by
  cases a with
  | error e => rfl
  | ok x => cases x <;> rfl

theorem allOf_cons (v : Except MErr Bool) (vs : List (Except MErr Bool)) :
    allOf (v :: vs) = andV v (allOf vs) := by
  cases v with
  | error e => rfl
  | ok x => cases x <;> rfl

theorem andV_true (v : Except MErr Bool) : andV v (.ok true) = v := by
  cases v with
  | error e => rfl
  | ok x => cases x <;> rfl

theorem anyOf_single (v : Except MErr Bool) : anyOf [v] = v := by
  cases v with
  | error e => rfl
  | ok x => cases x <;> rfl

/-- The values of the groups of a chain that starts with the value `v`. -/
def linkValues (c : Ctx) : Except MErr Bool → List Link → List (Except MErr Bool)
  | v, [] => [v]
  | v, (true, p) :: r => linkValues c (andV v (p.value c)) r
  | v, (false, p) :: r => v :: linkValues c (p.value c) r

theorem pieceValues_map (c : Ctx) (ps : List Piece) : pieceValues c ps = ps.map (·.value c) := by
  induction ps with
  | nil => simp [pieceValues]
  | cons p ps ih => simp [pieceValues, ih]

theorem linkValues_and (c : Ctx) (r : List Link) : ∀ (v : Except MErr Bool) (p : Piece) g gs,
    groupsOf p r = (p :: g) :: gs →
    linkValues c (andV v (p.value c)) r =
      andV v (allOf (pieceValues c (p :: g))) :: groupValues c gs := by
  induction r with
  | nil =>
    intro v p g gs h
    simp [groupsOf] at h
    obtain ⟨rfl, rfl⟩ := h
    simp [linkValues, groupValues, pieceValues, allOf_cons, allOf, andV_true]
  | cons x r ih =>
    intro v p g gs h
    obtain ⟨b, q⟩ := x
    obtain ⟨g', gs', h'⟩ := groupsOf_cons q r
    cases b with
    | true =>
      simp only [groupsOf, h', consHead, List.cons.injEq, true_and] at h
      obtain ⟨rfl, rfl⟩ := h
      simp only [linkValues]
      rw [ih _ q g' gs' h', andV_assoc]
      simp only [pieceValues, allOf_cons]
    | false =>
      simp only [groupsOf, List.cons.injEq, true_and] at h
      obtain ⟨rfl, rfl⟩ := h
      have := ih (.ok true) q g' gs' h'
      have e : andV (.ok true) (q.value c) = q.value c := rfl
      rw [e] at this
      simp only [linkValues, this, h']
      have e' : ∀ v, andV (.ok true) v = v := fun v => rfl
      simp [groupValues, pieceValues, allOf_cons, allOf, andV_true, e']

theorem linkValues_groups (c : Ctx) (p : Piece) (r : List Link) :
    linkValues c (p.value c) r = groupValues c (groupsOf p r) := by
  obtain ⟨g, gs, h⟩ := groupsOf_cons p r
  have := linkValues_and c r (.ok true) p g gs h
  have e : ∀ v, andV (.ok true) v = v := fun v => rfl
  rw [e, e] at this
  rw [this, h]
  simp [groupValues]

theorem evalAny_map (c : Ctx) (ms : List Marker) : evalAny c ms = anyOf (ms.map (·.eval c)) := by
  induction ms with
  | nil => simp [evalAny, anyOf]
  | cons m ms ih =>
    simp only [evalAny, List.map_cons, anyOf, ih]
    cases Marker.eval c m with
    | error e => rfl
    | ok x => cases x <;> rfl

theorem finish_value (c : Ctx) (e m : Marker) (ors : List Marker) (t r : Text)
    (h : finish (some e) ors t = .ok (m, r)) :
    r = t ∧ m.eval c = anyOf (ors.map (·.eval c) ++ [e.eval c]) := by
  cases ors with
  | nil =>
    simp [finish] at h
    obtain ⟨rfl, rfl⟩ := h
    simp [anyOf_single]
  | cons o os =>
    simp [finish] at h
    obtain ⟨rfl, rfl⟩ := h
    simp [Marker.eval, evalAny_map]

theorem finish_ok (e : Marker) (ors : List Marker) (t : Text) : ∃ m, finish (some e) ors t = .ok (m, t) := by
  cases ors with
  | nil => exact ⟨e, rfl⟩
  | cons o os => exact ⟨_, rfl⟩

/-! ### reading written expressions -/

/-- The blanks at the end of a piece. -/
def Piece.tail : Piece → Text
  | .atom _ _ _ _ _ _ b3 => b3
  | .paren _ _ b3 => b3

theorem Piece.Ok.tail {p : Piece} (h : p.Ok) : Blank p.tail := by
  cases p with
  | atom b0 l b1 op b2 r b3 => simp only [Piece.Ok] at h; exact h.2.2.2.1
  | paren b0 gs b3 => simp only [Piece.Ok] at h; exact h.2.1

theorem word_text_pos (w : Word) (hw : w.Ok) : 0 < w.text.length := by
  cases w with
  | str d s => simp [Word.text]
  | name n => obtain ⟨c, cs, rfl, _⟩ := hw; simp [Word.text]

theorem piece_text_pos (p : Piece) (h : p.Ok) : 0 < p.text.length := by
  cases p with
  | atom b0 l b1 op b2 r b3 =>
    simp only [Piece.Ok] at h
    have := word_text_pos l h.2.2.2.2.1
    simp [Piece.text]; omega
  | paren b0 gs b3 => simp [Piece.text]; omega

theorem atEnd_startsNot (R : Text) (h : atEnd R = true) : StartsNot isIdent R ∧ StartsNot isSpace R := by
  cases R with
  | nil => simp
  | cons c cs =>
    simp [atEnd] at h
    rcases h with rfl | rfl <;> simp <;> decide

theorem links_first (r : List Link) (R : Text) (hR : atEnd R = true) :
    (r = [] → linksText r ++ R = R) ∧
    StartsNot isSpace (linksText r ++ R) := by
  refine ⟨by rintro rfl; rfl, ?_⟩
  match r with
  | [] => exact (atEnd_startsNot R hR).2
  | (true, p) :: r => simp [linksText]; decide
  | (false, p) :: r => simp [linksText]; decide

/-- A piece without the blanks in front of it. -/
theorem piece_lead (p : Piece) (hp : p.Ok) (X : Text) :
    ∃ q : Piece, q.Ok ∧ q.closed = p.closed ∧ q.tail = p.tail ∧ (∀ c, q.value c = p.value c) ∧
      skipWs (p.text ++ X) = q.text ++ X ∧
      q.text.length ≤ p.text.length ∧ atEnd (q.text ++ X) = false := by
  cases p with
  | atom b0 l b1 op b2 rr b3 =>
    have hp' := hp
    simp only [Piece.Ok] at hp'
    obtain ⟨h0, h1, h2, h3, hl, ho, hr, hw⟩ := hp'
    refine ⟨.atom [] l b1 op b2 rr b3, ?_, rfl, rfl, fun c => by simp [Piece.value], ?_, ?_, ?_⟩
    · simp only [Piece.Ok]
      exact ⟨by simp [Blank], h1, h2, h3, hl, ho, hr, hw⟩
    · obtain ⟨x, xs, w1, w2, _, w4⟩ :=
        word_first l hl (b1 ++ (op.text ++ (b2 ++ (rr.text ++ (b3 ++ X)))))
      have : Piece.text (.atom b0 l b1 op b2 rr b3) ++ X =
          b0 ++ (l.text ++ (b1 ++ (op.text ++ (b2 ++ (rr.text ++ (b3 ++ X)))))) := by
        simp [Piece.text]
      rw [this, skipWs_append b0 _ h0 (by rw [w1]; simp [w2])]
      simp [Piece.text]
    · simp [Piece.text]
    · cases l with
      | str d s =>
        simp [Piece.text, Word.text, atEnd]
        cases d <;> decide
      | name n =>
        obtain ⟨x, xs, rfl, hx, _⟩ := hl
        simp [Piece.text, Word.text, atEnd]
        constructor <;> rintro rfl <;> exact absurd hx (by decide)
  | paren b0 gs b3 =>
    have hp' := hp
    simp only [Piece.Ok] at hp'
    obtain ⟨h0, h3, hne, hgs, hcl⟩ := hp'
    refine ⟨.paren [] gs b3, ?_, rfl, rfl, fun c => by simp [Piece.value], ?_, ?_, ?_⟩
    · simp only [Piece.Ok]
      exact ⟨by simp [Blank], h3, hne, hgs, hcl⟩
    · have : Piece.text (.paren b0 gs b3) ++ X =
          b0 ++ ('(' :: (orText gs ++ (')' :: (b3 ++ X)))) := by
        simp [Piece.text]
      rw [this, skipWs_append b0 _ h0 (by simp; decide)]
      simp [Piece.text]
    · simp [Piece.text]
    · simp [Piece.text, atEnd]

/-- What follows a piece in a chain. -/
theorem piece_after (p : Piece) (r : List Link) (R : Text) (hp : p.Ok) (hR : atEnd R = true)
    (hc : ∀ q, q ∈ (p :: r.map (·.2)).dropLast → q.closed = true) :
    (p.closed = false → StartsNot isIdent (linksText r ++ R)) ∧
    skipWs (p.tail ++ (linksText r ++ R)) = linksText r ++ R := by
  refine ⟨?_, skipWs_append _ _ hp.tail (links_first r R hR).2⟩
  intro hcl
  cases r with
  | nil => exact (atEnd_startsNot R hR).1
  | cons x r =>
    have := hc p (by simp [List.dropLast])
    rw [hcl] at this; simp at this

/-- The three mutually recursive functions on written expressions. -/
theorem read_text (f : Nat) :
    (∀ (p : Piece) (R : Text), p.Ok → 4 * p.text.length ≤ f →
      (p.closed = false → StartsNot isIdent R) →
      ∃ m, readExpr f (p.text ++ R) = .ok (m, p.tail ++ R) ∧ ∀ c, m.eval c = p.value c) ∧
    (∀ (gs : Expr) (R : Text), ExprOk gs → 4 * (orText gs).length + 2 ≤ f → atEnd R = true →
      ∃ m, readCompound f (orText gs ++ R) = .ok (m, R) ∧ ∀ c, m.eval c = exprValue c gs) ∧
    (∀ (p : Piece) (r : List Link) (R : Text), p.Ok → (∀ x, x ∈ r → x.2.Ok) →
      (∀ q, q ∈ (p :: r.map (·.2)).dropLast → q.closed = true) →
      4 * (p.text ++ linksText r).length + 1 ≤ f → atEnd R = true →
      atEnd (p.text ++ (linksText r ++ R)) = false →
      ∃ m, readChain f none [] (p.text ++ (linksText r ++ R)) = .ok (m, R) ∧
        ∀ c, m.eval c = anyOf (linkValues c (p.value c) r)) ∧
    (∀ (r : List Link) (e : Marker) (ors : List Marker) (R : Text), (∀ x, x ∈ r → x.2.Ok) →
      (∀ p, p ∈ (r.map (·.2)).dropLast → p.closed = true) → 4 * (linksText r).length + 1 ≤ f →
      atEnd R = true →
      ∃ m, readChain f (some e) ors (linksText r ++ R) = .ok (m, R) ∧
        ∀ c, m.eval c = anyOf (ors.map (·.eval c) ++ linkValues c (e.eval c) r)) := by
  induction f with
  | zero =>
    refine ⟨?_, ?_, ?_, ?_⟩
    · intro p R hp hf; have := piece_text_pos p hp; omega
    · intro gs R hgs hf; omega
    · intro p r R _ _ _ hf; omega
    · intro r e ors R _ _ hf; omega
  | succ f ih =>
    obtain ⟨ih1, ih2, ih3, ih4⟩ := ih
    refine ⟨?_, ?_, ?_, ?_⟩
    · intro p R hp hf hR
      cases p with
      | atom b0 l b1 op b2 r b3 =>
        simp only [Piece.Ok] at hp
        obtain ⟨h0, h1, h2, h3, hl, ho, hr, hw⟩ := hp
        refine ⟨.cmp l.operand op.op r.operand, ?_, fun c => by simp [Marker.eval, Piece.value]⟩
        have e : Piece.text (.atom b0 l b1 op b2 r b3) ++ R =
            b0 ++ (l.text ++ (b1 ++ (op.text ++ (b2 ++ (r.text ++ (b3 ++ R)))))) := by
          simp [Piece.text]
        obtain ⟨x, xs, w1, w2, _, w4⟩ :=
          word_first l hl (b1 ++ (op.text ++ (b2 ++ (r.text ++ (b3 ++ R)))))
        have hs : skipWs (Piece.text (.atom b0 l b1 op b2 r b3) ++ R) = x :: xs := by
          rw [e, skipWs_append b0 _ h0 (by rw [w1]; simp [w2]), w1]
        have hcmp := readCmp_text l r op b1 b2 (b3 ++ R) hl hr ho h1 h2 hw (by
          intro hn
          apply blank_startsNot_ident b3 R h3
          intro hb
          exact hR (by simp [Piece.closed, hn, hb]))
        rw [w1] at hcmp
        simp only [readExpr, hs]
        split
        · rename_i heq; simp at heq; exact absurd heq.1 w4
        · exact hcmp
      | paren b0 gs b3 =>
        simp only [Piece.Ok] at hp
        obtain ⟨h0, h3, hne, hgs, hcl⟩ := hp
        have e : Piece.text (.paren b0 gs b3) ++ R = b0 ++ ('(' :: (orText gs ++ (')' :: (b3 ++ R)))) := by
          simp [Piece.text]
        have hs : skipWs (Piece.text (.paren b0 gs b3) ++ R) = '(' :: (orText gs ++ (')' :: (b3 ++ R))) := by
          rw [e, skipWs_append b0 _ h0 (by simp; decide)]
        obtain ⟨m, hm1, hm2⟩ := ih2 gs (')' :: (b3 ++ R)) ⟨hne, hgs, hcl⟩
          (by simp [Piece.text] at hf; omega) rfl
        refine ⟨m, ?_, fun c => by rw [hm2]; simp [Piece.value, exprValue]⟩
        simp only [readExpr, hs, hm1, closeParen, Piece.tail]
    · intro gs R hgs hf hR
      obtain ⟨hne, hok, hcl⟩ := hgs
      obtain ⟨hgne, hpok⟩ := (groupsOk_iff gs).1 hok
      obtain ⟨p, r, rfl⟩ := groupsOf_surj gs hne hgne
      rw [groupsOf_flatten] at hpok hcl
      rw [groupsOf_text] at hf ⊢
      have hp : p.Ok := hpok p (by simp)
      obtain ⟨q, hq1, hq2, hq3, hq4, hq5, hq6, hq7⟩ := piece_lead p hp (linksText r ++ R)
      obtain ⟨m, hm1, hm2⟩ := ih3 q r R hq1 (fun x hx => hpok x.2 (List.mem_cons_of_mem _ (List.mem_map_of_mem hx)))
        (by
          intro y hy
          cases r with
          | nil => simp at hy
          | cons x r =>
            simp only [List.map_cons, List.dropLast_cons_cons, List.mem_cons] at hy hcl
            rcases hy with rfl | hy
            · rw [hq2]; exact hcl p (Or.inl rfl)
            · exact hcl y (Or.inr hy))
        (by simp at hf ⊢; omega) hR hq7
      refine ⟨m, ?_, fun c => by rw [hm2, hq4, linkValues_groups]; rfl⟩
      rw [List.append_assoc]
      simp only [readCompound, hq5, hm1]
    · intro p r R hp hr hcl hf hR hend
      obtain ⟨ha1, ha2⟩ := piece_after p r R hp hR hcl
      have hpos := piece_text_pos p hp
      obtain ⟨n, hn1, hn2⟩ := ih1 p (linksText r ++ R) hp (by simp at hf; omega) ha1
      obtain ⟨m, hm1, hm2⟩ := ih4 r n [] R hr (by
        intro y hy
        cases r with
        | nil => simp at hy
        | cons x r => exact hcl y (by simp only [List.map_cons, List.dropLast_cons_cons, List.mem_cons] at hy ⊢; right; exact hy))
        (by simp at hf; omega) hR
      refine ⟨m, ?_, fun c => by rw [hm2, hn2]; rfl⟩
      simp only [readChain, hend, hn1, ha2, hm1]
      simp
    · intro r e ors R hr hcl hf hR
      cases r with
      | nil =>
        obtain ⟨m, hm⟩ := finish_ok e ors R
        refine ⟨m, ?_, fun c => ?_⟩
        · simp only [linksText, List.nil_append, readChain, hR, hm]
          simp
        · rw [(finish_value c e m ors R R hm).2]; rfl
      | cons x r =>
        obtain ⟨b, p⟩ := x
        have hp : p.Ok := hr (b, p) (by simp)
        obtain ⟨ha1, ha2⟩ := piece_after p r R hp hR (by simpa using hcl)
        have hcl' : ∀ q, q ∈ (r.map (·.2)).dropLast → q.closed = true := by
          intro y hy
          cases r with
          | nil => simp at hy
          | cons x r => exact hcl y (by simp only [List.map_cons, List.dropLast_cons_cons, List.mem_cons] at hy ⊢; right; exact hy)
        have hr' : ∀ x, x ∈ r → x.2.Ok := fun x hx => hr x (by simp [hx])
        cases b with
        | true =>
          obtain ⟨n, hn1, hn2⟩ := ih1 p (linksText r ++ R) hp (by simp [linksText] at hf; omega) ha1
          obtain ⟨m, hm1, hm2⟩ := ih4 r (.and e n) ors R hr' hcl' (by simp [linksText] at hf; omega) hR
          refine ⟨m, ?_, fun c => ?_⟩
          · have e1 : atEnd ('a' :: 'n' :: 'd' :: (p.text ++ (linksText r ++ R))) = false := rfl
            have e2 : matchLogic ('a' :: 'n' :: 'd' :: (p.text ++ (linksText r ++ R))) =
                some (true, p.text ++ (linksText r ++ R)) := by
              simp [matchLogic, matchLit, List.isPrefixOf]
            simp only [linksText, List.cons_append, List.append_assoc, readChain, e1, e2, hn1, ha2, hm1]
            simp
          · have : Marker.eval c (.and e n) = andV (e.eval c) (p.value c) := by
              simp only [Marker.eval, hn2]
              cases Marker.eval c e with
              | error e => rfl
              | ok x => cases x <;> rfl
            rw [hm2, this]; rfl
        | false =>
          obtain ⟨n, hn1, hn2⟩ := ih1 p (linksText r ++ R) hp (by simp [linksText] at hf; omega) ha1
          obtain ⟨m, hm1, hm2⟩ := ih4 r n (ors ++ [e]) R hr' hcl' (by simp [linksText] at hf; omega) hR
          refine ⟨m, ?_, fun c => ?_⟩
          · have e1 : atEnd ('o' :: 'r' :: (p.text ++ (linksText r ++ R))) = false := rfl
            have e2 : matchLogic ('o' :: 'r' :: (p.text ++ (linksText r ++ R))) =
                some (false, p.text ++ (linksText r ++ R)) := by
              simp [matchLogic, matchLit, List.isPrefixOf]
            simp only [linksText, List.cons_append, List.append_assoc, readChain, e1, e2, hn1, ha2, hm1]
            simp
          · rw [hm2, hn2]; simp [linkValues]

/-! ### what is read is a written expression -/

/-- The three mutually recursive functions: what they accept. -/
theorem read_ok (f : Nat) :
    (∀ (t R : Text) (m : Marker), readExpr f t = .ok (m, R) →
      ∃ p : Piece, p.Ok ∧ t = p.text ++ R ∧ p.tail = [] ∧ (∀ c, m.eval c = p.value c) ∧
        (p.closed = false → StartsNot isIdent R)) ∧
    (∀ (t R : Text) (m : Marker), readCompound f t = .ok (m, R) →
      ∃ gs : Expr, ExprOk gs ∧ t = orText gs ++ R ∧ atEnd R = true ∧ ∀ c, m.eval c = exprValue c gs) ∧
    (∀ (t R : Text) (m : Marker), readChain f none [] t = .ok (m, R) →
      ∃ (p : Piece) (r : List Link), p.Ok ∧ (∀ x, x ∈ r → x.2.Ok) ∧
        (∀ q, q ∈ (p :: r.map (·.2)).dropLast → q.closed = true) ∧ t = p.text ++ (linksText r ++ R) ∧
        atEnd R = true ∧ ∀ c, m.eval c = anyOf (linkValues c (p.value c) r)) ∧
    (∀ (t R : Text) (e m : Marker) (ors : List Marker), readChain f (some e) ors t = .ok (m, R) →
      ∃ r : List Link, (∀ x, x ∈ r → x.2.Ok) ∧ (∀ p, p ∈ (r.map (·.2)).dropLast → p.closed = true) ∧
        t = linksText r ++ R ∧ atEnd R = true ∧
        ∀ c, m.eval c = anyOf (ors.map (·.eval c) ++ linkValues c (e.eval c) r)) := by
  induction f with
  | zero =>
    refine ⟨?_, ?_, ?_, ?_⟩
    · intro t R m h; simp [readExpr] at h
    · intro t R m h; simp [readCompound] at h
    · intro t R m h; simp [readChain] at h
    · intro t R e m ors h; simp [readChain] at h
  | succ f ih =>
    obtain ⟨ih1, ih2, ih3, ih4⟩ := ih
    -- a piece and the blanks after it
    have piece : ∀ (t t2 : Text) (n : Marker), readExpr f t = .ok (n, t2) →
        ∃ p : Piece, p.Ok ∧ t = p.text ++ skipWs t2 ∧ (∀ c, n.eval c = p.value c) ∧
          (p.closed = false → StartsNot isIdent (skipWs t2)) := by
      intro t t2 n h
      obtain ⟨p, hp, ht, htail, hv, hcl⟩ := ih1 t t2 n h
      obtain ⟨b, hb, hs, _⟩ := skipWs_split t2
      cases p with
      | atom b0 l b1 op b2 r b3 =>
        simp only [Piece.tail] at htail; subst htail
        simp only [Piece.Ok] at hp
        obtain ⟨h0, h1, h2, h3, hl, ho, hr, hw⟩ := hp
        refine ⟨.atom b0 l b1 op b2 r b, by simp only [Piece.Ok]; exact ⟨h0, h1, h2, hb, hl, ho, hr, hw⟩,
          ?_, fun c => by rw [hv]; simp [Piece.value], ?_⟩
        · rw [ht]; conv => lhs; rw [hs]
          simp [Piece.text]
        · intro h
          simp [Piece.closed] at h
          have := hcl (by simp [Piece.closed, h.1])
          rw [hs, h.2] at this; exact this
      | paren b0 gs b3 =>
        simp only [Piece.tail] at htail; subst htail
        simp only [Piece.Ok] at hp
        obtain ⟨h0, h3, hrest⟩ := hp
        refine ⟨.paren b0 gs b, by simp only [Piece.Ok]; exact ⟨h0, hb, hrest⟩,
          ?_, fun c => by rw [hv]; simp [Piece.value], by simp [Piece.closed]⟩
        rw [ht]; conv => lhs; rw [hs]
        simp [Piece.text]
    have closedCons : ∀ (p : Piece) (r : List Link) (X R : Text), X = linksText r ++ R →
        (p.closed = false → StartsNot isIdent X) →
        (∀ q, q ∈ (r.map (·.2)).dropLast → q.closed = true) →
        ∀ q, q ∈ (p :: r.map (·.2)).dropLast → q.closed = true := by
      intro p r X R hX hp hr q hq
      match r with
      | [] => simp at hq
      | x :: r =>
        simp only [List.map_cons, List.dropLast_cons_cons, List.mem_cons] at hq hr
        rcases hq with rfl | hq
        · cases hc : q.closed with
          | true => rfl
          | false =>
            have := hp hc
            rw [hX] at this
            obtain ⟨b, y⟩ := x
            cases b <;> simp [linksText] at this <;> exact absurd this (by decide)
        · exact hr q hq
    refine ⟨?_, ?_, ?_, ?_⟩
    · intro t R m h
      simp only [readExpr] at h
      obtain ⟨b, hb, hs, _⟩ := skipWs_split t
      split at h
      · rename_i r heq
        cases hc : readCompound f r with
        | error e => rw [hc] at h; simp [closeParen] at h
        | ok x =>
          obtain ⟨m', R'⟩ := x
          rw [hc] at h
          obtain ⟨gs, hgs, ht, hend, hv⟩ := ih2 r R' m' hc
          cases R' with
          | nil => simp [closeParen] at h
          | cons y ys =>
            simp only [closeParen] at h
            split at h
            · rename_i heq'
              simp at heq' h
              obtain ⟨rfl, rfl⟩ := h
              obtain ⟨rfl, rfl, rfl⟩ := heq'
              refine ⟨.paren b gs [], ?_, ?_, rfl, ?_, by simp [Piece.closed]⟩
              · simp only [Piece.Ok]
                exact ⟨hb, by simp [Blank], hgs.1, hgs.2.1, hgs.2.2⟩
              · rw [hs, heq, ht]; simp [Piece.text]
              · intro c; rw [hv]; simp [Piece.value, exprValue]
            · simp at h
            · simp at h
      · rename_i heq
        obtain ⟨l, r, op, b1, b2, hl, hr, ho, h1, h2, hw, hR, ht, rfl⟩ := readCmp_ok _ R m h
        refine ⟨.atom b l b1 op b2 r [], ?_, ?_, rfl, ?_, ?_⟩
        · simp only [Piece.Ok]
          exact ⟨hb, h1, h2, by simp [Blank], hl, ho, hr, hw⟩
        · rw [hs, ht]; simp [Piece.text]
        · intro c; simp [Marker.eval, Piece.value]
        · intro h
          simp [Piece.closed] at h
          exact hR h
    · intro t R m h
      simp only [readCompound] at h
      obtain ⟨b, hb, hs, _⟩ := skipWs_split t
      obtain ⟨p, r, hp, hr, hcl, ht, hend, hv⟩ := ih3 _ R m h
      -- put the blanks in front of the first piece
      obtain ⟨q, hq1, hq2, hq3, hq4⟩ : ∃ q : Piece, q.Ok ∧ q.text = b ++ p.text ∧
          q.closed = p.closed ∧ ∀ c, q.value c = p.value c := by
        cases p with
        | atom b0 l b1 op b2 rr b3 =>
          simp only [Piece.Ok] at hp
          obtain ⟨h0, hrest⟩ := hp
          refine ⟨.atom (b ++ b0) l b1 op b2 rr b3, ?_, by simp [Piece.text], rfl, fun c => by simp [Piece.value]⟩
          simp only [Piece.Ok]
          refine ⟨?_, hrest⟩
          intro c hc; simp at hc; exact hc.elim (hb c) (h0 c)
        | paren b0 gs b3 =>
          simp only [Piece.Ok] at hp
          obtain ⟨h0, hrest⟩ := hp
          refine ⟨.paren (b ++ b0) gs b3, ?_, by simp [Piece.text], rfl, fun c => by simp [Piece.value]⟩
          simp only [Piece.Ok]
          refine ⟨?_, hrest⟩
          intro c hc; simp at hc; exact hc.elim (hb c) (h0 c)
      refine ⟨groupsOf q r, ⟨?_, ?_, ?_⟩, ?_, hend, ?_⟩
      · obtain ⟨g, gs, hg⟩ := groupsOf_cons q r
        rw [hg]; simp
      · rw [groupsOk_iff]
        refine ⟨groupsOf_ne r q, ?_⟩
        rw [groupsOf_flatten]
        intro y hy
        simp only [List.mem_cons, List.mem_map] at hy
        rcases hy with rfl | ⟨x, hx, rfl⟩
        · exact hq1
        · exact hr x hx
      · rw [groupsOf_flatten]
        intro y hy
        cases r with
        | nil => simp at hy
        | cons x r =>
          simp only [List.map_cons, List.dropLast_cons_cons, List.mem_cons] at hy hcl
          rcases hy with rfl | hy
          · rw [hq3]; exact hcl p (Or.inl rfl)
          · exact hcl y (Or.inr hy)
      · rw [groupsOf_text, hq2, hs, ht]; simp
      · intro c
        rw [hv, ← hq4, linkValues_groups]; rfl
    · intro t R m h
      simp only [readChain] at h
      split at h
      · simp [finish] at h
      · cases hn : readExpr f t with
        | error e => rw [hn] at h; simp at h
        | ok x =>
          obtain ⟨n, t2⟩ := x
          rw [hn] at h
          simp only at h
          obtain ⟨p, hp, ht, hv, hcl⟩ := piece t t2 n hn
          obtain ⟨r, hr, hrc, htr, hend, hmv⟩ := ih4 _ R n m [] h
          refine ⟨p, r, hp, hr, closedCons p r _ R htr hcl hrc, by rw [ht, htr], hend, ?_⟩
          intro c; rw [hmv, hv]; rfl
    · intro t R e m ors h
      simp only [readChain] at h
      split at h
      · rename_i hend
        have hf := fun c => finish_value c e m ors t R h
        have hR : R = t := (hf ⟨fun _ => none, [], fun _ => [], ⟨fun _ => none, id⟩⟩).1
        subst hR
        exact ⟨[], by simp, by simp, rfl, hend, fun c => (hf c).2⟩
      · cases hl : matchLogic t with
        | none => rw [hl] at h; simp at h
        | some x =>
          obtain ⟨isAnd, t1⟩ := x
          rw [hl] at h
          simp only at h
          cases hn : readExpr f t1 with
          | error e => rw [hn] at h; simp at h
          | ok x =>
            obtain ⟨n, t2⟩ := x
            rw [hn] at h
            simp only at h
            obtain ⟨p, hp, ht, hv, hcl⟩ := piece t1 t2 n hn
            simp only [matchLogic] at hl
            cases ha : matchLit ['a', 'n', 'd'] t with
            | some u =>
              rw [ha] at hl
              simp at hl
              obtain ⟨rfl, rfl⟩ := hl
              simp only [if_true] at h
              obtain ⟨r, hr, hrc, htr, hend, hmv⟩ := ih4 _ R _ m ors h
              refine ⟨(true, p) :: r, ?_, closedCons p r _ R htr hcl hrc, ?_, hend, ?_⟩
              · intro x hx
                simp at hx
                rcases hx with rfl | hx
                · exact hp
                · exact hr x hx
              · rw [matchLit_some _ _ _ ha, ht]; simp [linksText, htr]
              · intro c
                have : Marker.eval c (.and e n) = andV (e.eval c) (p.value c) := by
                  simp only [Marker.eval, hv]
                  cases Marker.eval c e with
                  | error e => rfl
                  | ok x => cases x <;> rfl
                rw [hmv, this]; rfl
            | none =>
              rw [ha] at hl
              simp only at hl
              cases hor : matchLit ['o', 'r'] t with
              | none => rw [hor] at hl; simp at hl
              | some u =>
                rw [hor] at hl
                simp at hl
                obtain ⟨rfl, rfl⟩ := hl
                simp at h
                obtain ⟨r, hr, hrc, htr, hend, hmv⟩ := ih4 _ R _ m _ h
                refine ⟨(false, p) :: r, ?_, closedCons p r _ R htr hcl hrc, ?_, hend, ?_⟩
                · intro x hx
                  simp at hx
                  rcases hx with rfl | hx
                  · exact hp
                  · exact hr x hx
                · rw [matchLit_some _ _ _ hor, ht]; simp [linksText, htr]
                · intro c
                  rw [hmv, hv]; simp [linkValues]

end Pkm.Markers
