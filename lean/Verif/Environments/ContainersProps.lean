import Verif.Environments.Containers
import Verif.Names.Props
import Verif.Http.UrlProps
import Verif.Tags.Lemmas
set_option linter.unusedVariables false
set_option linter.unusedSimpArgs false
/-
C83: programs of package containers.
-/
namespace Pkm
namespace Spec
open Containers Entry

/-- A usual name of a script: letters, digits, `_`, `.` and `-`; it begins with a letter or `_`, a `-` is between two others. -/
def ScriptName (n : Text) : Prop :=
  (∀ ch ∈ n, isAlnum ch = true ∨ ch = '_' ∨ ch = '.' ∨ ch = '-') ∧
  (∃ ch, n.head? = some ch ∧ isDigit ch = false ∧ ch ≠ '.' ∧ ch ≠ '-') ∧ n.getLast? ≠ some '-' ∧ ¬ ['-', '-'] <:+: n

/-- The function that stands for a script. -/
def functionFor (n : Text) : Text := n.map (fun ch => if ch = '-' ∨ ch = '.' then '_' else ch)

/-- The scripts have usual names, that are no reserved words and not `sys`, and name an object; those whose names differ only in
`-`, `.` and `_` are for the same object. -/
def GoodScripts (es : List EntryPoint) : Prop :=
  (∀ e ∈ es, ScriptName e.name ∧ functionFor e.name ∉ keywords ∧ functionFor e.name ≠ t!"sys" ∧ e.ref.object ≠ none) ∧
  ∀ a ∈ es, ∀ b ∈ es, functionFor a.name = functionFor b.name → a.ref = b.ref

/-- The containers of one environment: the one in question is set apart from the others by its name and its directories, and the
interpreter does not know its directory. -/
def SetApart (c : Container) (cs : List Container) (base : List Text) : Prop :=
  siteOf c ∉ base ∧ ∀ d ∈ cs, d ≠ c → d.name ≠ c.name ∧ d.dir ≠ c.dir ∧ siteOf c ≠ siteOf d ∧ siteOf c ∉ d.links

end Spec
open Spec
namespace Containers
open Entry

/-! ### registering -/

theorem addSiteDir_one (l : List Text) (s : Text) (h : s ∉ l) : addSiteDir l s [] = l ++ [s] := by
  simp [addSiteDir, addNew, h]

theorem foldl_addNew (ds : List Text) : ∀ l : List Text, ∃ r, ds.foldl addNew l = l ++ r ∧ ∀ x ∈ r, x ∈ ds := by
  induction ds with
  | nil => intro l; exact ⟨[], by simp⟩
  | cons d ds ih =>
    intro l
    obtain ⟨r, h1, h2⟩ := ih (addNew l d)
    simp only [List.foldl_cons]
    rw [h1]
    unfold addNew
    split
    · exact ⟨r, rfl, fun x hx => by simp [h2 x hx]⟩
    · refine ⟨d :: r, by simp, ?_⟩
      intro x hx
      rcases List.mem_cons.1 hx with rfl | hx
      · simp
      · simp [h2 x hx]

theorem lastToSecond_snoc (y : Text) (r : List Text) (x : Text) : lastToSecond (y :: r ++ [x]) = y :: x :: r := by
  unfold lastToSecond
  have h : (y :: r ++ [x]).getLast? = some x := List.getLast?_concat
  rw [h]
  simp only
  rw [show (y :: r ++ [x]).dropLast = y :: r from List.dropLast_concat]

theorem lastToSecond_head (y : Text) (r : List Text) : ∃ r', lastToSecond (y :: r) = y :: r' ∧ ∀ x, x ∈ r' ↔ x ∈ r := by
  cases h : r.reverse with
  | nil =>
    have : r = [] := by simpa using h
    subst this
    exact ⟨[], rfl, by simp⟩
  | cons x t =>
    have : r = t.reverse ++ [x] := by
      have := congrArg List.reverse h
      simpa using this
    subst this
    refine ⟨x :: t.reverse, lastToSecond_snoc y t.reverse x, ?_⟩
    intro z
    simp [or_comm]

/-- What is known of a process before the container `c` is used: its first directory is `y`; `c` has either been registered, or
nothing of it is there. -/
structure Known (c : Container) (y : Text) (q : Proc) : Prop where
  head : ∃ r, q.sysPath = y :: r
  reg : c.dir ∈ q.done → q.marker = some c.name ∧ ∃ r, q.sysPath = y :: siteOf c :: r
  unreg : c.dir ∉ q.done → siteOf c ∉ q.sysPath

theorem known_register (c : Container) (y : Text) (q : Proc) (hl : c.links = []) (h : Known c y q) :
    ∃ r, (register c q).sysPath = y :: siteOf c :: r := by
  unfold register
  by_cases hd : c.dir ∈ q.done
  · rw [if_pos hd]; exact (h.reg hd).2
  · rw [if_neg hd, hl]
    obtain ⟨r, hr⟩ := h.head
    have hn := h.unreg hd
    simp only
    rw [addSiteDir_one _ _ hn, hr, lastToSecond_snoc]
    exact ⟨r, rfl⟩

theorem register_marker (c : Container) (q : Proc) (h : c.dir ∉ q.done) : (register c q).marker = some c.name := by
  simp [register, h]

theorem register_done (c d : Container) (q : Proc) : d.dir ∈ (register c q).done ↔ d.dir = c.dir ∨ d.dir ∈ q.done := by
  unfold register
  split
  · rename_i h
    constructor
    · exact Or.inr
    · rintro (h' | h')
      · rw [h']; exact h
      · exact h'
  · simp

theorem known_hook (c d : Container) (y : Text) (q : Proc) (hl : c.links = []) (h : Known c y q)
    (hd : d ≠ c → d.name ≠ c.name ∧ d.dir ≠ c.dir ∧ siteOf c ≠ siteOf d ∧ siteOf c ∉ d.links) : Known c y (hook q d) := by
  unfold hook
  split
  · rename_i hm
    by_cases e : d = c
    · subst e
      obtain ⟨r, hr⟩ := known_register d y q hl h
      refine ⟨⟨_, hr⟩, ?_, ?_⟩
      · intro _
        refine ⟨?_, r, hr⟩
        by_cases h' : d.dir ∈ q.done
        · rw [show register d q = q by simp [register, h']]; exact hm
        · exact register_marker d q h'
      · intro hn
        exact absurd ((register_done d d q).2 (Or.inl rfl)) hn
    · obtain ⟨h1, h2, h3, h4⟩ := hd e
      have hnc : c.dir ∉ q.done := by
        intro hc
        have := (h.reg hc).1
        rw [hm] at this
        exact h1 (Option.some.inj this)
      have hnc' : c.dir ∉ (register d q).done := by
        intro hc
        rcases (register_done d c q).1 hc with hc | hc
        · exact h2 hc.symm
        · exact hnc hc
      by_cases hdd : d.dir ∈ q.done
      · rw [show register d q = q by simp [register, hdd]]; exact h
      · obtain ⟨r, hr⟩ := h.head
        have hsp : (register d q).sysPath = lastToSecond (addSiteDir q.sysPath (siteOf d) d.links) := by simp [register, hdd]
        obtain ⟨r2, e2, m2⟩ := foldl_addNew (siteOf d :: d.links) q.sysPath
        obtain ⟨r3, e3, m3⟩ := lastToSecond_head y (r ++ r2)
        have hsp' : (register d q).sysPath = y :: r3 := by
          rw [hsp, addSiteDir, e2, hr]; exact e3
        refine ⟨⟨r3, hsp'⟩, fun hc => absurd hc hnc', fun _ => ?_⟩
        rw [hsp']
        intro hx
        have hu := h.unreg hnc
        rw [hr] at hu
        rcases List.mem_cons.1 hx with hx | hx
        · exact hu (by simp [hx])
        · rcases List.mem_append.1 ((m3 _).1 hx) with hx | hx
          · exact hu (by simp [hx])
          · rcases List.mem_cons.1 (m2 _ hx) with hx | hx
            · exact h3 hx
            · exact h4 hx
  · exact h

theorem known_hooks (c : Container) (y : Text) (hl : c.links = []) (cs : List Container)
    (hd : ∀ d ∈ cs, d ≠ c → d.name ≠ c.name ∧ d.dir ≠ c.dir ∧ siteOf c ≠ siteOf d ∧ siteOf c ∉ d.links) :
    ∀ q, Known c y q → Known c y (cs.foldl hook q) := by
  induction cs with
  | nil => intro q h; exact h
  | cons d cs ih =>
    intro q h
    exact ih (fun d hd' => hd d (by simp [hd'])) _ (known_hook c d y q hl h (hd d (by simp)))

theorem hooks_other (cs : List Container) (q : Proc) (h : ∀ d ∈ cs, q.marker ≠ some d.name) : cs.foldl hook q = q := by
  induction cs with
  | nil => rfl
  | cons d cs ih =>
    simp only [List.foldl_cons]
    rw [show hook q d = q by simp [hook, h d (by simp)]]
    exact ih (fun d hd => h d (by simp [hd]))

/-- C83 (other programs): a program that was not started by one of a container knows nothing of the containers of the environment. -/
theorem plain_program (cs : List Container) (dir : Text) (p : Proc) (h : ∀ d ∈ cs, p.marker ≠ some d.name) :
    start cs dir p = { p with sysPath := dir :: p.sysPath } := by
  unfold start
  rw [hooks_other cs p h]

/-! ### the functions -/

theorem clean_of (s : Text) : ∀ run, (∀ ch ∈ s, nameChar ch = true ∨ ch = '-') → (run = true → s.head? ≠ some '-') →
    ¬ ['-', '-'] <:+: s → Clean run s := by
  induction s with
  | nil => intro run _ _ _; trivial
  | cons c cs ih =>
    intro run h1 h2 h3
    have h3' : ¬ ['-', '-'] <:+: cs := fun h => h3 (h.trans (List.suffix_cons c cs).isInfix)
    rcases h1 c (by simp) with h | h
    · exact Or.inl ⟨h, ih false (fun ch hc => h1 ch (by simp [hc])) (by simp) h3'⟩
    · subst h
      refine Or.inr ⟨?_, rfl, ih true (fun ch hc => h1 ch (by simp [hc])) ?_ h3'⟩
      · cases run with
        | false => rfl
        | true => exact absurd rfl (h2 rfl)
      · intro _ hh
        cases cs with
        | nil => simp at hh
        | cons d ds =>
          simp at hh
          subst hh
          exact h3 ⟨[], ds, rfl⟩

theorem fnName_good (e : EntryPoint) (h : ScriptName e.name) : fnName e = some (functionFor e.name) := by
  obtain ⟨h1, ⟨ch, hch, hd, hdot, hdash⟩, hlast, h2⟩ := h
  have hn : normalizeName e.name = some e.name := by
    unfold normalizeName
    have hc : Clean false e.name := by
      refine clean_of e.name false ?_ (by simp) h2
      intro ch hm
      rcases h1 ch hm with h | h | h | h
      · exact Or.inl (isAlnum_nameChar ch h)
      · subst h; exact Or.inl (by decide)
      · subst h; exact Or.inl (by decide)
      · exact Or.inr h
    rw [subDash_clean false _ hc, stripChar_fix '-' e.name]
    · cases hnm : e.name with
      | nil => rw [hnm] at hch; simp at hch
      | cons a b => simp
    · intro c cs heq
      rw [heq] at hch
      simp at hch
      rw [hch]; exact hdash
    · intro c cs heq he
      apply hlast
      rw [heq, he]
      exact List.getLast?_concat
  simp only [fnName, srcPackageName, hn, Option.map_some]
  congr 1
  apply List.map_congr_left
  intro x _
  by_cases hx : x = '-'
  · simp [hx]
  · by_cases hy : x = '.'
    · simp [hy]
    · simp [hx, hy]

theorem isIdent_good (n : Text) (h : ScriptName n) (hk : functionFor n ∉ keywords) : isIdent (functionFor n) = true := by
  obtain ⟨h1, ⟨ch, hch, hd, hdot, hdash⟩, hlast, h2⟩ := h
  have hall : ∀ x ∈ functionFor n, (isAlnum x || x == '_') = true := by
    intro x hx
    obtain ⟨z, hz, rfl⟩ := List.mem_map.1 hx
    rcases h1 z hz with h | h | h | h
    · by_cases e : z = '-' ∨ z = '.'
      · simp [e]
      · simp [e, h]
    · subst h; decide
    · subst h; decide
    · subst h; decide
  cases n with
  | nil => simp at hch
  | cons c cs =>
    simp at hch
    subst hch
    have he : functionFor (c :: cs) = c :: functionFor cs := by
      simp [functionFor, hdot, hdash]
    rw [he] at hk hall ⊢
    simp only [isIdent, hd, Bool.not_false, Bool.true_and, Bool.and_eq_true, Bool.not_eq_true']
    refine ⟨List.all_eq_true.2 hall, ?_⟩
    cases hc : keywords.contains (c :: functionFor cs) with
    | false => rfl
    | true => exact absurd (List.contains_iff_mem.1 hc) hk

theorem functions_get (es : List EntryPoint) (h : ∀ e ∈ es, fnName e = some (functionFor e.name)) (f : Text) :
    ∀ d : Dict Text Ref, (es.foldl define d).get f =
      match es.reverse.find? (fun e => functionFor e.name = f) with
      | some e => some e.ref
      | none => d.get f := by
  induction es with
  | nil => intro d; rfl
  | cons e es ih =>
    intro d
    simp only [List.foldl_cons, define, h e (by simp)]
    rw [ih (fun e he => h e (by simp [he]))]
    simp only [List.reverse_cons, List.find?_append]
    cases hf : es.reverse.find? (fun e => functionFor e.name = f) with
    | some x => simp
    | none =>
      by_cases hx : functionFor e.name = f
      · simp [hx, Dict.get_put]
      · simp [hx, Dict.get_put]

theorem functions_good (es : List EntryPoint) (h : GoodScripts es) (e : EntryPoint) (he : e ∈ es) :
    (functions es).get (functionFor e.name) = some e.ref := by
  unfold functions
  rw [functions_get es (fun e he => fnName_good e (h.1 e he).1)]
  cases hf : es.reverse.find? (fun x => functionFor x.name = functionFor e.name) with
  | none =>
    have := List.find?_eq_none.1 hf e (by simpa using he)
    simp at this
  | some x =>
    have h1 := List.find?_some hf
    have h2 := List.mem_of_find?_eq_some hf
    simp at h1 h2
    simp [h.2 x h2 e he h1]

theorem functions_sys (es : List EntryPoint) (h : GoodScripts es) : (functions es).get t!"sys" = none := by
  unfold functions
  rw [functions_get es (fun e he => fnName_good e (h.1 e he).1)]
  cases hf : es.reverse.find? (fun x => functionFor x.name = t!"sys") with
  | none => rfl
  | some x =>
    have h1 := List.find?_some hf
    have h2 := List.mem_of_find?_eq_some hf
    simp at h1 h2
    exact absurd h1 (h.1 x h2).2.2.1

theorem wellFormed_good (es : List EntryPoint) (h : GoodScripts es) : es.all wellFormed = true := by
  rw [List.all_eq_true]
  intro e he
  obtain ⟨h1, h2, h3, h4⟩ := h.1 e he
  simp only [wellFormed, fnName_good e h1, isIdent_good e.name h1 h2, Bool.true_and]
  exact Option.isSome_iff_ne_none.2 h4

/-- C83 (what runs): a script of a container does what the script of its package does, with the directories of the container
registered; only the status is always 0. -/
theorem script_runs (w : Code) (c : Container) (e : EntryPoint) (p : Proc) (hs : GoodScripts c.scripts) (he : e ∈ c.scripts) :
    (runScript w c e p).1 = register c p ∧
    (runScript w c e p).2 = (match runPlain w e.ref (register c p) with
      | .ok r => .ok { r with status := 0 }
      | .error x => .error x) := by
  obtain ⟨h1, h2, h3, h4⟩ := hs.1 e he
  obtain ⟨o, ho⟩ := Option.ne_none_iff_exists'.1 h4
  unfold runScript runPlain
  rw [fnName_good e h1]
  simp only [wellFormed_good _ hs, Bool.not_true, Bool.false_eq_true, if_false, functions_good _ hs e he, functions_sys _ hs,
    ne_eq, not_true_eq_false, ho]
  cases (register c p).sysPath.find? (fun d => w.has d e.ref.module) with
  | none => simp
  | some d => simp

/-- C83 (the module is the container's): a script of a container, started from anywhere, runs the module that the container has,
unless the directory of programs or the first directory of the interpreter have one of that name. -/
theorem launch_own_module (w : Code) (cs : List Container) (c : Container) (e : EntryPoint) (dir y : Text) (ys : List Text) (p : Proc)
    (hb : p.sysPath = y :: ys) (hf : p.done = []) (hl : c.links = []) (ha : SetApart c cs p.sysPath) (hsd : siteOf c ≠ dir)
    (hs : GoodScripts c.scripts) (he : e ∈ c.scripts) (hm : w.has (siteOf c) e.ref.module = true)
    (h1 : w.has dir e.ref.module = false) (h2 : w.has y e.ref.module = false) :
    ∃ o, e.ref.object = some o ∧ (launch w cs c e dir p).2 = .ok ⟨siteOf c, e.ref.module, o, 0⟩ := by
  obtain ⟨o, ho⟩ := Option.ne_none_iff_exists'.1 (hs.1 e he).2.2.2
  refine ⟨o, ho, ?_⟩
  unfold launch
  rw [(script_runs w c e _ hs he).2]
  have hk : Known c y (cs.foldl hook p) := by
    refine known_hooks c y hl cs ha.2 p ⟨⟨ys, hb⟩, ?_, ?_⟩
    · rw [hf]; intro h; simp at h
    · intro _; exact ha.1
  have hfind : (register c (start cs dir p)).sysPath.find? (fun d => w.has d e.ref.module) = some (siteOf c) := by
    by_cases hd : c.dir ∈ (cs.foldl hook p).done
    · obtain ⟨_, r, hr⟩ := hk.reg hd
      have : (register c (start cs dir p)) = start cs dir p := by
        unfold register start
        simp [hd]
      rw [this]
      simp only [start, hr]
      simp [List.find?_cons, h1, h2, hm]
    · have : (register c (start cs dir p)).sysPath = dir :: siteOf c :: (cs.foldl hook p).sysPath := by
        have hn := hk.unreg hd
        unfold register start
        simp only [hd, if_false, hl]
        rw [addSiteDir_one _ _ (by simp [hsd, hn])]
        exact lastToSecond_snoc dir _ (siteOf c)
      rw [this]
      simp [List.find?_cons, h1, hm]
  unfold runPlain
  rw [ho]
  simp only [hfind]

/-- C83 (directories): started from outside of containers, a program has the container's directory behind that of the programs and in
front of all others. -/
theorem launch_directories (cs : List Container) (c : Container) (dir : Text) (p : Proc)
    (hf : p.done = []) (hl : c.links = []) (ha : SetApart c cs p.sysPath) (hsd : siteOf c ≠ dir)
    (hm : ∀ d ∈ cs, p.marker ≠ some d.name) :
    register c (start cs dir p) = ⟨dir :: siteOf c :: p.sysPath, some (pathWith (binOf c) p.path), some c.name, dataOf c, [c.dir]⟩ := by
  rw [plain_program cs dir p hm]
  unfold register
  simp only [hf, List.not_mem_nil, if_false, hl]
  rw [addSiteDir_one _ _ (by simp [hsd, ha.1]), lastToSecond_snoc]

theorem hooks_same (c : Container) (cs : List Container) (ha : ∀ d ∈ cs, d ≠ c → d.name ≠ c.name) : ∀ q : Proc,
    q.marker = some c.name → cs.foldl hook q = if c ∈ cs then register c q else q := by
  have key : ∀ (cs : List Container) (ha : ∀ d ∈ cs, d ≠ c → d.name ≠ c.name) (q : Proc), q.marker = some c.name →
      c.dir ∈ q.done → cs.foldl hook q = q := by
    intro cs
    induction cs with
    | nil => intros; rfl
    | cons d cs ih =>
      intro ha q hq hd
      simp only [List.foldl_cons]
      have : hook q d = q := by
        unfold hook
        by_cases e : d = c
        · subst e; simp [hq, register, hd]
        · rw [if_neg]
          rw [hq]
          intro hh
          exact ha d (by simp) e (Option.some.inj hh).symm
      rw [this]
      exact ih (fun d hd => ha d (by simp [hd])) q hq hd
  induction cs with
  | nil => intro q _; rfl
  | cons d cs ih =>
    intro q hq
    simp only [List.foldl_cons]
    by_cases e : d = c
    · subst e
      have hh : hook q d = register d q := by simp [hook, hq]
      rw [hh, key cs (fun x hx => ha x (by simp [hx])) (register d q) ?_ ((register_done d d q).2 (Or.inl rfl))]
      · simp
      · by_cases h' : d.dir ∈ q.done
        · rw [show register d q = q by simp [register, h']]; exact hq
        · exact register_marker d q h'
    · have hh : hook q d = q := by
        unfold hook
        rw [if_neg]
        rw [hq]
        intro hh
        exact ha d (by simp) e (Option.some.inj hh).symm
      rw [hh, ih (fun x hx => ha x (by simp [hx])) q hq]
      have : (c ∈ d :: cs) ↔ c ∈ cs := by simp [Ne.symm e]
      simp [this]

/-- C83 (programs started by programs): a Python program of the same environment that a program of a container starts has the
container's directory too, and the variables stay as they are. -/
theorem child_directories (cs : List Container) (c : Container) (dir dir' root y : Text) (ys : List Text) (p : Proc)
    (hc : c ∈ cs) (hl : c.links = []) (ha : SetApart c cs (y :: ys)) (hq : p.marker = some c.name)
    (hp : ∃ t, p.path = some t ∧ hasSub (binOf c) t = true ∧ t ≠ []) :
    start cs dir' (child (y :: ys) root p) =
      ⟨dir' :: y :: siteOf c :: ys, p.path, some c.name, dataOf c, [c.dir]⟩ := by
  unfold start
  rw [hooks_same c cs (fun d hd e => (ha.2 d hd e).1) _ (by simp [child, hq]), if_pos hc]
  obtain ⟨t, h1, h2, h3⟩ := hp
  unfold register
  simp only [child, List.not_mem_nil, if_false, hl]
  rw [addSiteDir_one _ _ ha.1, h1]
  rw [show y :: ys ++ [siteOf c] = (y :: ys) ++ [siteOf c] from rfl, lastToSecond_snoc]
  cases t with
  | nil => exact absurd rfl h3
  | cons a b => simp [pathWith, h2]

/-! ### PATH -/

theorem hasSub_iff (a : Text) : ∀ b : Text, hasSub a b = true ↔ a <:+: b := by
  intro b
  induction b with
  | nil => simp [hasSub, List.isEmpty_iff]
  | cons c cs ih =>
    simp only [hasSub, Bool.or_eq_true, ih, List.isPrefixOf_iff_prefix, List.infix_cons_iff]

theorem infix_piece (sep : Char) (a : Text) (ha : sep ∉ a) (hne : a ≠ []) : ∀ b : Text, a <:+: b →
    ∃ p ∈ splitOn sep b, a <:+: p := by
  have pre : ∀ b : Text, ∀ a : Text, sep ∉ a → a <+: b → ∃ p ps, splitOn sep b = p :: ps ∧ a <+: p := by
    intro b
    induction b with
    | nil =>
      intro a _ h
      refine ⟨[], [], rfl, h⟩
    | cons c cs ih =>
      intro a ha h
      unfold splitOn
      cases a with
      | nil =>
        by_cases e : c = sep
        · exact ⟨[], splitOn sep cs, by simp [e], List.nil_prefix⟩
        · obtain ⟨p, ps, hp, _⟩ := ih [] (by simp) List.nil_prefix
          exact ⟨c :: p, ps, by simp [e, hp], List.nil_prefix⟩
      | cons x xs =>
        obtain ⟨hx, hxs⟩ := List.cons_prefix_cons.1 h
        subst hx
        have e : x ≠ sep := fun e => ha (by simp [e])
        obtain ⟨p, ps, hp, hpp⟩ := ih xs (fun hh => ha (by simp [hh])) hxs
        exact ⟨x :: p, ps, by simp [e, hp], List.cons_prefix_cons.2 ⟨rfl, hpp⟩⟩
  intro b
  induction b with
  | nil =>
    intro h
    exact absurd (List.infix_nil.1 h) hne
  | cons c cs ih =>
    intro h
    rcases List.infix_cons_iff.1 h with h | h
    · obtain ⟨p, ps, hp, hpp⟩ := pre (c :: cs) a ha h
      exact ⟨p, by simp [hp], hpp.isInfix⟩
    · obtain ⟨p, hp, hpp⟩ := ih h
      unfold splitOn
      by_cases e : c = sep
      · exact ⟨p, by simp [e, hp], hpp⟩
      · simp only [e, if_false]
        cases hs : splitOn sep cs with
        | nil => rw [hs] at hp; simp at hp
        | cons q qs =>
          rw [hs] at hp
          rcases List.mem_cons.1 hp with rfl | hp
          · exact ⟨c :: p, by simp, hpp.trans (List.suffix_cons c p).isInfix⟩
          · exact ⟨p, by simp [hp], hpp⟩

/-- C83 (PATH): full statement: the programs of a container are found: its directory of programs is one of PATH. Proved if no
directory of PATH has that one as a part of its name. If it was not there it is the first, and the others stay. -/
theorem path_has_bin_partial (bin : Text) (old : Option Text) (hb : ':' ∉ bin) (hne : bin ≠ [])
    (h : ∀ t, old = some t → ∀ d ∈ splitOn ':' t, bin <:+: d → d = bin) :
    bin ∈ splitOn ':' (pathWith bin old) ∧
    (∀ t, old = some t → t ≠ [] → bin ∉ splitOn ':' t → splitOn ':' (pathWith bin old) = bin :: splitOn ':' t) ∧
    (∀ t, old = some t → t ≠ [] → bin ∈ splitOn ':' t → pathWith bin old = t) := by
  have single : splitOn ':' bin = [bin] := Tags.splitOn_one ':' bin hb
  cases old with
  | none => exact ⟨by simp [pathWith, single], by simp, by simp⟩
  | some t =>
    by_cases ht : t = []
    · subst ht
      exact ⟨by simp [pathWith, single], fun t e hn => absurd (Option.some.inj e).symm hn,
        fun t e hn => absurd (Option.some.inj e).symm hn⟩
    · have he : t.isEmpty = false := by simpa [List.isEmpty_iff] using ht
      have hin : hasSub bin t = true → bin ∈ splitOn ':' t := by
        intro hs
        obtain ⟨p, hp, hpp⟩ := infix_piece ':' bin hb hne t ((hasSub_iff bin t).1 hs)
        rw [← h t rfl p hp hpp]; exact hp
      have hni : hasSub bin t = false → bin ∉ splitOn ':' t := by
        intro hs hm
        have : bin <:+: t := by
          clear hin h he ht single hs
          revert hm
          induction t with
          | nil => intro hm; simp [splitOn] at hm; exact absurd hm hne
          | cons c cs ih =>
            have pre : ∀ b : Text, ∀ p ps, splitOn ':' b = p :: ps → p <+: b := by
              intro b
              induction b with
              | nil => intro p ps e; simp [splitOn] at e; rw [e.1]; exact List.nil_prefix
              | cons x xs ihx =>
                intro p ps e
                unfold splitOn at e
                split at e
                · simp at e; rw [e.1]; exact List.nil_prefix
                · split at e
                  · simp at e
                    rw [← e.1]
                    exact List.cons_prefix_cons.2 ⟨rfl, List.nil_prefix⟩
                  · rename_i s ss hs
                    simp at e
                    rw [← e.1]
                    exact List.cons_prefix_cons.2 ⟨rfl, ihx s ss hs⟩
            intro hm
            unfold splitOn at hm
            split at hm
            · rcases List.mem_cons.1 hm with e | hm
              · exact absurd e hne
              · exact (ih hm).trans (List.suffix_cons c cs).isInfix
            · split at hm
              · rename_i hs
                simp at hm
                rw [hm]
                exact (List.cons_prefix_cons.2 ⟨rfl, List.nil_prefix⟩ : [c] <+: c :: cs).isInfix
              · rename_i s ss hs
                rcases List.mem_cons.1 hm with e | hm
                · rw [e]
                  exact (List.cons_prefix_cons.2 ⟨rfl, pre cs s ss hs⟩ : c :: s <+: c :: cs).isInfix
                · exact (ih (by rw [hs]; simp [hm])).trans (List.suffix_cons c cs).isInfix
        rw [(hasSub_iff bin t).2 this] at hs
        exact absurd hs (by simp)
      cases hs : hasSub bin t with
      | true =>
        have e : pathWith bin (some t) = t := by simp [pathWith, he, hs]
        rw [e]
        exact ⟨hin hs, fun u eu _ hn => by cases eu; exact absurd (hin hs) hn, fun u eu _ _ => by cases eu; rfl⟩
      | false =>
        have e : pathWith bin (some t) = bin ++ ':' :: t := by simp [pathWith, he, hs]
        rw [e, Tags.splitOn_step ':' bin t hb]
        exact ⟨by simp, fun u eu _ _ => by cases eu; rfl, fun u eu _ hn => by cases eu; exact absurd hn (hni hs)⟩

/-- C83 (which scripts): the scripts of a container are those of the packages it exposes and of the application. -/
theorem scripts_exposed (inst : Text → Option (List EntryPoint)) (exposed : List Text) (app : Text) (e : EntryPoint) :
    e ∈ collectScripts inst exposed app ↔ (e.group = t!"console_scripts" ∨ e.group = t!"gui_scripts") ∧
      ∃ x es, (x ∈ exposed ∨ x = app) ∧ inst x = some es ∧ e ∈ es := by
  simp only [collectScripts, List.mem_flatMap, List.mem_append, List.mem_cons, List.not_mem_nil, or_false]
  constructor
  · rintro ⟨x, hx, h⟩
    cases hi : inst x with
    | none => rw [hi] at h; simp at h
    | some es =>
      rw [hi] at h
      obtain ⟨h1, h2⟩ := List.mem_filter.1 h
      exact ⟨by simpa [EntryPoint.isScript] using h2, x, es, hx, hi, h1⟩
  · rintro ⟨hg, x, es, hx, hi, h1⟩
    refine ⟨x, hx, ?_⟩
    rw [hi]
    exact List.mem_filter.2 ⟨h1, by simpa [EntryPoint.isScript] using hg⟩

/-! ### violations -/

/-- C83 is violated with a link in the container (a package installed in editable mode): the directory of the link comes first, that of
the container last: what the environment has hides what the container has. -/
theorem linked_container_violated (w : Code) (cs : List Container) (c : Container) (e : EntryPoint) (dir l : Text) (p : Proc)
    (hf : p.done = []) (hl : c.links = [l]) (ha : siteOf c ∉ dir :: p.sysPath) (hn : l ∉ siteOf c :: dir :: p.sysPath)
    (hm : ∀ d ∈ cs, p.marker ≠ some d.name) (hs : GoodScripts c.scripts) (he : e ∈ c.scripts)
    (d : Text) (hd : d ∈ p.sysPath) (h1 : w.has d e.ref.module = true) (h2 : w.has l e.ref.module = false) :
    (register c (start cs dir p)).sysPath = dir :: l :: (p.sysPath ++ [siteOf c]) ∧
    ∃ d' ∈ dir :: p.sysPath, ∃ o, (launch w cs c e dir p).2 = .ok ⟨d', e.ref.module, o, 0⟩ := by
  have hsp : (register c (start cs dir p)).sysPath = dir :: l :: (p.sysPath ++ [siteOf c]) := by
    rw [plain_program cs dir p hm]
    unfold register
    simp only [hf, List.not_mem_nil, if_false, hl]
    have : addSiteDir (dir :: p.sysPath) (siteOf c) [l] = dir :: (p.sysPath ++ [siteOf c]) ++ [l] := by
      simp only [addSiteDir, List.foldl_cons, List.foldl_nil]
      rw [show addNew (dir :: p.sysPath) (siteOf c) = dir :: p.sysPath ++ [siteOf c] by simp [addNew]; simpa using ha]
      have : l ∉ dir :: p.sysPath ++ [siteOf c] := by
        intro h
        apply hn
        simp only [List.mem_cons, List.mem_append, List.not_mem_nil, or_false, List.cons_append] at h ⊢
        rcases h with h | h | h
        · exact Or.inr (Or.inl h)
        · exact Or.inr (Or.inr h)
        · exact Or.inl h
      rw [addNew, if_neg this]; simp
    rw [this, lastToSecond_snoc]
  refine ⟨hsp, ?_⟩
  obtain ⟨o, ho⟩ := Option.ne_none_iff_exists'.1 (hs.1 e he).2.2.2
  unfold launch
  rw [(script_runs w c e _ hs he).2]
  unfold runPlain
  rw [ho, hsp]
  by_cases hdir : w.has dir e.ref.module = true
  · exact ⟨dir, by simp, o, by simp [List.find?_cons, hdir]⟩
  · cases hfd : p.sysPath.find? (fun d => w.has d e.ref.module) with
    | none =>
      have := List.find?_eq_none.1 hfd d hd
      exact absurd h1 this
    | some x =>
      refine ⟨x, by simp [List.mem_of_find?_eq_some hfd], o, ?_⟩
      simp [List.find?_cons, hdir, h2, List.find?_append, hfd]

/-- C83 is violated for the status: a program of a container always ends with 0. -/
theorem status_violated (w : Code) (c : Container) (e : EntryPoint) (p q : Proc) (r : Ran)
    (h : runScript w c e p = (q, .ok r)) : r.status = 0 := by
  unfold runScript at h
  split at h
  · cases h
  · split at h
    · cases h
    · simp only at h
      split at h
      · cases h
      · split at h
        · cases h
        · split at h
          · cases h
          · cases h; rfl

def exScript (n o : Text) : EntryPoint := ⟨t!"console_scripts", n, ⟨t!"tool.main", some o, none⟩⟩
def exBox : Container := ⟨t!"tool-containerized", t!"/env/lib/tool_containerized", [], [exScript t!"tool" t!"run", exScript t!"tool-x" t!"extra"]⟩
def exOther : Container := ⟨t!"other-containerized", t!"/env/lib/other_containerized", [], []⟩
def exCode : Code := ⟨fun d m => m == t!"tool.main" && (d == siteOf exBox || d == t!"/env/lib"), fun d _ _ => if d == siteOf exBox then 3 else 4⟩
def exProc : Proc := ⟨[t!"/py.zip", t!"/py", t!"/env/lib"], some t!"/usr/bin", none, t!"/env", []⟩

/-- C83 is violated for scripts whose names differ in `-` and `.` only: one runs the other's object. -/
theorem same_function_violated : ∃ (a b : EntryPoint), a.name ≠ b.name ∧ ScriptName a.name ∧ ScriptName b.name ∧
    ((launch exCode [exBox] ⟨exBox.name, exBox.dir, [], [a, b]⟩ a t!"/env/bin" exProc).2 =
      .ok ⟨siteOf exBox, t!"tool.main", t!"extra", 0⟩) ∧ a.ref.object = some t!"run" := by
  refine ⟨exScript t!"tool-x" t!"run", exScript t!"tool.x" t!"extra", by decide, ?_, ?_, rfl, rfl⟩
  · exact ⟨by decide, ⟨'t', rfl, by decide, by decide, by decide⟩, by decide, by decide⟩
  · exact ⟨by decide, ⟨'t', rfl, by decide, by decide, by decide⟩, by decide, by decide⟩

/-- C83 is violated if a script's name begins with a digit or is a reserved word: no script of the container runs. -/
theorem bad_name_violated (w : Code) (c : Container) (e : EntryPoint) (p : Proc) (he : fnName e ≠ none)
    (h : ∃ x ∈ c.scripts, ∃ f, fnName x = some f ∧ ((∃ a t, f = a :: t ∧ isDigit a = true) ∨ f ∈ keywords)) :
    (runScript w c e p).2 = .error .syntaxError := by
  obtain ⟨x, hx, f, hf, hbad⟩ := h
  obtain ⟨g, hg⟩ := Option.ne_none_iff_exists'.1 he
  have hni : isIdent f = false := by
    rcases hbad with ⟨a, t, rfl, ha⟩ | hk
    · simp [isIdent, ha]
    · cases f with
      | nil => rfl
      | cons a t => simp only [isIdent, List.contains_iff_mem.2 hk]; simp
  have : c.scripts.all wellFormed = false := by
    rw [Bool.eq_false_iff]
    intro hall
    have := List.all_eq_true.1 hall x hx
    simp [wellFormed, hf, hni] at this
  unfold runScript
  rw [hg]
  simp [this]

/-- C83 is violated if there is a script named `sys`: no script of the container runs. -/
theorem sys_name_violated (w : Code) (c : Container) (e : EntryPoint) (p : Proc) (he : fnName e ≠ none)
    (hw : c.scripts.all wellFormed = true) (h : (functions c.scripts).get t!"sys" ≠ none) :
    (runScript w c e p).2 = .error .attribute := by
  obtain ⟨g, hg⟩ := Option.ne_none_iff_exists'.1 he
  unfold runScript
  rw [hg]
  simp only [hw, Bool.not_true, Bool.false_eq_true, if_false]
  cases (functions c.scripts).get g with
  | none => rfl
  | some r => simp [h]

/-- C83 is violated for a program of one container that starts one of another: the second also has the packages of the first. -/
theorem nested_violated : ∃ (p : Proc), (launch exCode [exBox, exOther] exBox (exScript t!"tool" t!"run") t!"/env/bin" exProc).1 = p ∧
    siteOf exBox ∈ (register exOther (start [exBox, exOther] t!"/env/bin" (child exProc.sysPath t!"/env" p))).sysPath :=
  ⟨_, rfl, by decide⟩

/-- C83 is violated for PATH: with a directory in it that has the one of the container as a part of its name, the programs of the
container are not found. -/
theorem path_part_violated : ∃ (old : Text), binOf exBox ∉ splitOn ':' (pathWith (binOf exBox) (some old)) :=
  ⟨binOf exBox ++ t!"-old", by decide⟩

/-! ### examples -/

theorem exScripts_good : GoodScripts exBox.scripts := by
  constructor
  · intro e he
    simp only [exBox, List.mem_cons, List.not_mem_nil, or_false] at he
    rcases he with rfl | rfl
    · exact ⟨⟨by decide, ⟨'t', rfl, by decide, by decide, by decide⟩, by decide, by decide⟩, by decide, by decide, by decide⟩
    · exact ⟨⟨by decide, ⟨'t', rfl, by decide, by decide, by decide⟩, by decide, by decide⟩, by decide, by decide, by decide⟩
  · decide

example : SetApart exBox [exOther, exBox] exProc.sysPath := by
  refine ⟨by decide, ?_⟩
  decide

/-- The program in the container is run, also when it is started by a program of the other container. -/
example : (launch exCode [exOther, exBox] exBox (exScript t!"tool" t!"run") t!"/env/bin" exProc).2 =
      .ok ⟨siteOf exBox, t!"tool.main", t!"run", 0⟩ ∧
    (launch exCode [exOther, exBox] exBox (exScript t!"tool-x" t!"extra") t!"/env/bin" { exProc with marker := some exOther.name }).2 =
      .ok ⟨siteOf exBox, t!"tool.main", t!"extra", 0⟩ := ⟨rfl, rfl⟩

/-- The same container with a link in it: the environment's module is run. -/
example : (launch exCode [] { exBox with links := [t!"/home/me/src"] } (exScript t!"tool" t!"run") t!"/env/bin" exProc).2 =
    .ok ⟨t!"/env/lib", t!"tool.main", t!"run", 0⟩ := rfl

/-- A program of the container starts another one. -/
example : (start [exOther, exBox] t!"/env/bin" (child exProc.sysPath t!"/env"
      (launch exCode [exOther, exBox] exBox (exScript t!"tool" t!"run") t!"/env/bin" exProc).1)).sysPath =
    [t!"/env/bin", t!"/py.zip", siteOf exBox, t!"/py", t!"/env/lib"] := rfl

end Containers
end Pkm
