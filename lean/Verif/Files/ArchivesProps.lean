import Verif.Files.Archives
import Verif.Tags.Lemmas
/-
C111: unpacking an archive puts its files into the given directory, where their names say, and touches nothing else. The
file system is any function from absolute paths to what is there.
-/
set_option linter.unusedVariables false
set_option linter.unusedSimpArgs false
namespace Pkm
namespace Spec
open Archives

/-- A directory that is there, given without `.` and `..`, and whose parents are directories and no links. -/
def RealTarget (f : Disk) (target : Path) : Prop :=
  (∀ x ∈ target, x ≠ t!"." ∧ x ≠ t!"..") ∧ ∀ q, q ≠ [] → q <+: target → f q = some .dir

/-- Nothing is in the directory. -/
def EmptyBelow (f : Disk) (target : Path) : Prop := ∀ q, q ≠ [] → f (target ++ q) = none

/-- There is no link in the directory. -/
def NoLinks (f : Disk) (target : Path) : Prop := ∀ q to, f (target ++ q) ≠ some (.link to)

/-- Only paths in the directory differ. -/
def SameOutside (f g : Disk) (target : Path) : Prop := ∀ p, ¬ target <+: p → g p = f p

/-- A name that is neither empty nor special. -/
def CleanName (x : Text) : Prop := x ≠ [] ∧ '/' ∉ x ∧ x ≠ t!"." ∧ x ≠ t!".."

/-- A path as a text. -/
def slashed : Path → Text
  | [] => []
  | [x] => x
  | x :: y :: xs => x ++ '/' :: slashed (y :: xs)

/-- What an archive has at a path: the data of a file, or a directory. -/
abbrev Place := Path × Option Text

/-- A member of an archive with an ordinary name. The names of directories end with a slash, which is optional in tar
files. -/
def NamedAs (tar : Bool) (m : Member) (pl : Place) : Prop :=
  pl.1 ≠ [] ∧ (∀ x ∈ pl.1, CleanName x) ∧
    match pl.2 with
    | some d => m = ⟨slashed pl.1, .file d⟩
    | none => m.body = .dir ∧ (m.name = slashed pl.1 ++ ['/'] ∨ (tar = true ∧ m.name = slashed pl.1))

/-- No file of an archive is also a directory, or has something below it. -/
def Coherent (pls : List Place) : Prop :=
  ∀ m ∈ pls, m.2 ≠ none → m.1 ≠ [] ∧ ∀ m' ∈ pls, m.1 <+: m'.1 → m'.1 = m.1 ∧ m'.2 ≠ none

/-- The last of the places with a path is a file with these data. -/
def LastFile (pls : List Place) (q : Path) (d : Text) : Prop :=
  ∃ before after, pls = before ++ (q, some d) :: after ∧ ∀ x ∈ after, x.1 ≠ q

/-- A directory has exactly the files of an archive, and the directories that it names and that its files are in. -/
structure LaidOut (f : Disk) (target : Path) (pls : List Place) : Prop where
  file : ∀ q d, f (target ++ q) = some (.file d) ↔ LastFile pls q d
  dir : ∀ q, f (target ++ q) = some .dir ↔ q = [] ∨ ∃ x ∈ pls, q <+: x.1 ∧ (x.1 = q → x.2 = none)
  link : ∀ q to, f (target ++ q) ≠ some (.link to)

/-- A name of a member that does not lead out of the directory. -/
def Inward (m : Member) : Prop :=
  m.name.head? ≠ some '/' ∧ t!".." ∉ splitOn '/' m.name ∧ ∀ to, m.body ≠ .link to

/-- The names of files that can be unpacked. -/
def ZipFileName (n : Text) : Prop := t!".zip" <:+ n ∨ t!".whl" <:+ n
def TarFileName (n : Text) : Prop := t!".tar.gz" <:+ n ∨ t!".tar.bz2" <:+ n

end Spec

namespace Archives
open Spec

/-! ### Confinement -/

theorem set_same (f : Disk) (p : Path) (n : Node) : f.set p n p = some n := by simp [Disk.set]

theorem set_other (f : Disk) {p q : Path} (n : Node) (h : q ≠ p) : f.set p n q = f q := by simp [Disk.set, h]

theorem set_confined {f : Disk} {target p : Path} {n : Node} (hp : target <+: p) (hn : ∀ to, n ≠ .link to) (hl : NoLinks f target) :
    SameOutside f (f.set p n) target ∧ NoLinks (f.set p n) target := by
  constructor
  · intro q hq
    exact set_other f n (fun e => hq (e ▸ hp))
  · intro q to
    by_cases e : target ++ q = p
    · rw [e, set_same]; intro h; cases h; exact hn _ rfl
    · rw [set_other f n e]; exact hl q to

theorem walk_confined {target : Path} : ∀ (xs : List Text) (f : Disk) (cur : Path), target <+: cur → t!".." ∉ xs → NoLinks f target →
    SameOutside f (walk f cur xs).1 target ∧ NoLinks (walk f cur xs).1 target ∧
      ∀ c, (walk f cur xs).2 = some c → target <+: c
  | [], f, cur, hc, _, hl => ⟨fun _ _ => rfl, hl, by intro c h; cases h; exact hc⟩
  | x :: xs, f, cur, hc, hx, hl => by
    have hx' : t!".." ∉ xs := fun h => hx (List.mem_cons_of_mem _ h)
    have hne : x ≠ t!".." := fun e => hx (e ▸ List.mem_cons_self ..)
    have hcx : target <+: cur ++ [x] := hc.trans (List.prefix_append ..)
    unfold walk
    by_cases hd : x = t!"."
    · rw [if_pos hd]; exact walk_confined xs f cur hc hx' hl
    · rw [if_neg hd, if_neg hne]
      split
      · obtain ⟨h1, h2⟩ := set_confined (n := .dir) hcx (by intro to h; cases h) hl
        obtain ⟨h3, h4, h5⟩ := walk_confined xs _ _ hcx hx' h2
        exact ⟨fun p hp => (h3 p hp).trans (h1 p hp), h4, h5⟩
      · exact walk_confined xs f _ hcx hx' hl
      · exact ⟨fun _ _ => rfl, hl, by intro c h; cases h⟩
      · rename_i to e
        obtain ⟨q, hq⟩ := hcx
        exact absurd (hq ▸ e) (hl q to)

theorem writeFile_confined {f : Disk} {target cur : Path} (hc : target <+: cur) (hl : NoLinks f target) (x d : Text) :
    SameOutside f (writeFile f cur x d).1 target ∧ NoLinks (writeFile f cur x d).1 target := by
  have hcx : target <+: cur ++ [x] := hc.trans (List.prefix_append ..)
  have key := set_confined (n := .file d) hcx (by intro to h; cases h) hl
  unfold writeFile
  split
  · exact ⟨fun _ _ => rfl, hl⟩
  · split
    · exact ⟨fun _ _ => rfl, hl⟩
    · rename_i to e
      obtain ⟨q, hq⟩ := hcx
      exact absurd (hq ▸ e) (hl q to)
    · exact key

theorem zipDir_confined {f : Disk} {target cur : Path} (hc : target <+: cur) (hl : NoLinks f target) (x : Text) :
    SameOutside f (zipDir f cur x).1 target ∧ NoLinks (zipDir f cur x).1 target := by
  have hcx : target <+: cur ++ [x] := hc.trans (List.prefix_append ..)
  have key := set_confined (n := .dir) hcx (by intro to h; cases h) hl
  unfold zipDir
  split
  · exact key
  all_goals exact ⟨fun _ _ => rfl, hl⟩

theorem tarDir_confined {f : Disk} {target cur : Path} (hc : target <+: cur) (hl : NoLinks f target) (x : Text) :
    SameOutside f (tarDir f cur x).1 target ∧ NoLinks (tarDir f cur x).1 target := by
  have hcx : target <+: cur ++ [x] := hc.trans (List.prefix_append ..)
  have key := set_confined (n := .dir) hcx (by intro to h; cases h) hl
  unfold tarDir
  split
  · exact ⟨fun _ _ => rfl, hl⟩
  · split
    · exact key
    · exact ⟨fun _ _ => rfl, hl⟩

theorem zipMember_confined {f : Disk} {target : Path} (hl : NoLinks f target) (m : Member) :
    SameOutside f (zipMember f target m).1 target ∧ NoLinks (zipMember f target m).1 target := by
  have hx : t!".." ∉ (zipNames m.name).dropLast := by
    intro h
    have := List.dropLast_subset _ h
    simp [zipNames] at this
  obtain ⟨h1, h2, h3⟩ := walk_confined (zipNames m.name).dropLast f target (List.prefix_refl _) hx hl
  unfold zipMember
  split
  · exact ⟨fun _ _ => rfl, hl⟩
  · rename_i x _
    generalize hw : walk f target (zipNames m.name).dropLast = w at h1 h2 h3
    obtain ⟨g, r⟩ := w
    cases r with
    | none => exact ⟨h1, h2⟩
    | some c =>
      have hc := h3 c rfl
      dsimp only
      split
      · obtain ⟨h4, h5⟩ := zipDir_confined hc h2 x
        exact ⟨fun p hp => (h4 p hp).trans (h1 p hp), h5⟩
      · obtain ⟨h4, h5⟩ := writeFile_confined hc h2 x (dataOf m.body)
        exact ⟨fun p hp => (h4 p hp).trans (h1 p hp), h5⟩

theorem tarMember_confined {f : Disk} {target : Path} (hl : NoLinks f target) (m : Member) (hi : Inward m) :
    SameOutside f (tarMember f target m).1 target ∧ NoLinks (tarMember f target m).1 target := by
  obtain ⟨ha, hx, hb⟩ := hi
  have hx : t!".." ∉ (names m.name).dropLast := fun h => hx (List.mem_filter.1 (List.dropLast_subset _ h)).1
  have hs : start target m.name = target := by
    unfold start
    split
    · rename_i e; rw [e] at ha; exact absurd rfl ha
    · rfl
  obtain ⟨h1, h2, h3⟩ := walk_confined (names m.name).dropLast f target (List.prefix_refl _) hx hl
  unfold tarMember
  split
  · exact ⟨fun _ _ => rfl, hl⟩
  · rename_i x _
    rw [hs]
    generalize hw : walk f target (names m.name).dropLast = w at h1 h2 h3
    obtain ⟨g, r⟩ := w
    cases r with
    | none => exact ⟨h1, h2⟩
    | some c =>
      have hc := h3 c rfl
      dsimp only
      split
      · rename_i d _
        obtain ⟨h4, h5⟩ := writeFile_confined hc h2 x d
        exact ⟨fun p hp => (h4 p hp).trans (h1 p hp), h5⟩
      · obtain ⟨h4, h5⟩ := tarDir_confined hc h2 x
        exact ⟨fun p hp => (h4 p hp).trans (h1 p hp), h5⟩
      · rename_i to e; exact absurd e (hb to)

theorem extractAll_confined {target : Path} {one : Disk → Member → Disk × Bool} : ∀ (ms : List Member) (f : Disk),
    (∀ m ∈ ms, ∀ f, NoLinks f target → SameOutside f (one f m).1 target ∧ NoLinks (one f m).1 target) → NoLinks f target →
    SameOutside f (extractAll one f ms).1 target ∧ NoLinks (extractAll one f ms).1 target
  | [], f, _, hl => ⟨fun _ _ => rfl, hl⟩
  | m :: ms, f, h, hl => by
    obtain ⟨h1, h2⟩ := h m (by simp) f hl
    unfold extractAll
    generalize one f m = w at h1 h2
    obtain ⟨g, r⟩ := w
    cases r with
    | false => exact ⟨h1, h2⟩
    | true =>
      obtain ⟨h3, h4⟩ := extractAll_confined ms g (fun m hm => h m (by simp [hm])) h2
      exact ⟨fun p hp => (h3 p hp).trans (h1 p hp), h4⟩

theorem walk_real : ∀ (t pre : Path) (f : Disk), (∀ x ∈ t, x ≠ t!"." ∧ x ≠ t!"..") →
    (∀ q, q ≠ [] → q <+: t → f (pre ++ q) = some .dir) → walk f pre t = (f, some (pre ++ t))
  | [], pre, f, _, _ => by simp [walk]
  | x :: t, pre, f, hn, h => by
    have h1 := hn x (by simp)
    have h2 := h [x] (by simp) (by simp)
    unfold walk
    rw [if_neg h1.1, if_neg h1.2, h2]
    dsimp only
    rw [walk_real t (pre ++ [x]) f (fun y hy => hn y (by simp [hy])) ?_]
    · simp
    · intro q hq hp
      have := h (x :: q) (by simp) (by simpa using hp)
      simpa using this

theorem toResult_fst (r : Disk × Bool) : (toResult r).1 = r.1 := by
  obtain ⟨f, b⟩ := r; cases b <;> rfl

theorem toResult_done (r : Disk × Bool) : (toResult r).2 = .done ↔ r.2 = true := by
  obtain ⟨f, b⟩ := r; cases b <;> simp [toResult]

theorem toResult_supported (r : Disk × Bool) : (toResult r).2 ≠ .unsupported := by
  obtain ⟨f, b⟩ := r; cases b <;> simp [toResult]

theorem extract_zip {f : Disk} {target : Path} (ht : RealTarget f target) {n : Text} (hn : ZipFileName n) (ms : List Member) :
    extract f n ms target = toResult (extractAll (fun f m => zipMember f target m) f ms) := by
  unfold extract
  rw [walk_real target [] f ht.1 (by simpa using ht.2)]
  dsimp only
  rw [if_pos (by simpa [ZipFileName] using hn)]

theorem tar_not_zip {n : Text} (hn : TarFileName n) : ¬ ZipFileName n := by
  rintro (⟨q, e⟩ | ⟨q, e⟩) <;> rcases hn with ⟨p, rfl⟩ | ⟨p, rfl⟩ <;>
    (have := congrArg List.getLast? e; simp at this)

theorem extract_tar {f : Disk} {target : Path} (ht : RealTarget f target) {n : Text} (hn : TarFileName n) (ms : List Member) :
    extract f n ms target = toResult (extractAll (fun f m => tarMember f target m) f ms) := by
  unfold extract
  rw [walk_real target [] f ht.1 (by simpa using ht.2)]
  dsimp only
  have hz : ¬ (t!".zip".isSuffixOf n = true ∨ t!".whl".isSuffixOf n = true) := by
    have := tar_not_zip hn
    simpa [ZipFileName] using this
  rw [if_neg hz]
  by_cases h : t!".tar.gz".isSuffixOf n = true
  · rw [if_pos h]
  · rw [if_neg h, if_pos]
    rcases hn with h' | h'
    · exact absurd (by simpa using h') h
    · simpa using h'

/-! ### What is laid out -/

/-- One member at its place, as a zip file is unpacked. -/
def place (f : Disk) (target : Path) (pl : Place) : Disk × Bool :=
  match pl.1.getLast? with
  | none => (f, pl.2.isNone)
  | some x =>
    match walk f target pl.1.dropLast with
    | (f, none) => (f, false)
    | (f, some cur) => match pl.2 with | none => zipDir f cur x | some d => writeFile f cur x d

/-- The place of a member of a zip file. -/
def zipPlace (m : Member) : Place := (zipNames m.name, if zipIsDir m.name then none else some (dataOf m.body))

theorem zipMember_place (f : Disk) (target : Path) (m : Member) : zipMember f target m = place f target (zipPlace m) := by
  unfold zipMember place zipPlace
  dsimp only
  cases (zipNames m.name).getLast? with
  | none => cases zipIsDir m.name <;> rfl
  | some x =>
    dsimp only
    generalize walk f target (zipNames m.name).dropLast = w
    obtain ⟨g, r⟩ := w
    cases r with
    | none => rfl
    | some c => cases zipIsDir m.name <;> rfl

/-- The names are ordinary ones. -/
def Walkable (p : Path) : Prop := ∀ x ∈ p, x ≠ t!"." ∧ x ≠ t!".."

theorem zipNames_walkable (t : Text) : Walkable (zipNames t) := by
  intro x hx
  have := (List.mem_filter.1 hx).2
  simpa using this

theorem walk_spec : ∀ (xs : List Text) (f : Disk) (cur : Path), Walkable xs → (∀ q to, f (cur ++ q) ≠ some (.link to)) →
    (∀ r, r ≠ [] → r <+: xs → ∀ d, f (cur ++ r) ≠ some (.file d)) →
    (walk f cur xs).2 = some (cur ++ xs) ∧ (∀ r, r ≠ [] → r <+: xs → (walk f cur xs).1 (cur ++ r) = some .dir) ∧
      ∀ p, (∀ r, r ≠ [] → r <+: xs → p ≠ cur ++ r) → (walk f cur xs).1 p = f p
  | [], f, cur, _, _, _ => ⟨by simp [walk], by intro r h1 h2; simp at h2; exact absurd h2 h1, fun _ _ => rfl⟩
  | x :: xs, f, cur, hw, hl, hf => by
    have hx := hw x (by simp)
    have hw' : Walkable xs := fun y hy => hw y (by simp [hy])
    have base : ∀ g : Disk, g (cur ++ [x]) = some .dir → (∀ p, p ≠ cur ++ [x] → g p = f p) →
        (walk g (cur ++ [x]) xs).2 = some (cur ++ x :: xs) ∧
        (∀ r, r ≠ [] → r <+: x :: xs → (walk g (cur ++ [x]) xs).1 (cur ++ r) = some .dir) ∧
        ∀ p, (∀ r, r ≠ [] → r <+: x :: xs → p ≠ cur ++ r) → (walk g (cur ++ [x]) xs).1 p = f p := by
      intro g hg hgf
      obtain ⟨h1, h2, h3⟩ := walk_spec xs g (cur ++ [x]) hw' (by
          intro q to
          by_cases e : cur ++ [x] ++ q = cur ++ [x]
          · rw [e, hg]; intro h; cases h
          · rw [hgf _ e]; have := hl (x :: q) to; simpa using this) (by
          intro r hr hp d
          rw [hgf _ (by simp [hr])]
          have := hf (x :: r) (by simp) (by simpa using hp) d
          simpa using this)
      refine ⟨by simpa using h1, ?_, ?_⟩
      · intro r hr hp
        cases r with
        | nil => exact absurd rfl hr
        | cons y r =>
          obtain ⟨rfl, hp'⟩ := List.cons_prefix_cons.1 hp
          by_cases e : r = []
          · subst e
            rw [h3 _ (by intro r hr _ e; have := congrArg List.length e; simp at this; exact hr this)]
            exact hg
          · have := h2 r e hp'; simpa using this
      · intro p hp
        rw [h3 p (by
          intro r hr hpr e
          exact hp (x :: r) (by simp) (by simpa using hpr) (by simpa using e))]
        exact hgf p (by simpa using hp [x] (by simp) (by simp))
    unfold walk
    rw [if_neg hx.1, if_neg hx.2]
    split
    · exact base _ (set_same ..) (fun p hp => set_other f _ hp)
    · rename_i e; exact base f e (fun _ _ => rfl)
    · rename_i d e; exact absurd e (hf [x] (by simp) (by simp) d)
    · rename_i to e; exact absurd e (hl [x] to)

theorem walk_blocked : ∀ (xs : List Text) (f : Disk) (cur : Path), Walkable xs → (∀ q to, f (cur ++ q) ≠ some (.link to)) →
    (∃ r d, r ≠ [] ∧ r <+: xs ∧ f (cur ++ r) = some (.file d)) → (walk f cur xs).2 = none
  | [], f, cur, _, _, h => by
    obtain ⟨r, d, h1, h2, _⟩ := h
    simp at h2; exact absurd h2 h1
  | x :: xs, f, cur, hw, hl, h => by
    obtain ⟨r, d, h1, h2, h3⟩ := h
    have hx := hw x (by simp)
    have hw' : Walkable xs := fun y hy => hw y (by simp [hy])
    cases r with
    | nil => exact absurd rfl h1
    | cons y r =>
      obtain ⟨rfl, hp'⟩ := List.cons_prefix_cons.1 h2
      have base : ∀ g : Disk, f (cur ++ [y]) ≠ some (.file d) ∨ r ≠ [] → (∀ to, g (cur ++ [y]) ≠ some (.link to)) →
          (∀ p, p ≠ cur ++ [y] → g p = f p) → r ≠ [] → (walk g (cur ++ [y]) xs).2 = none := by
        intro g _ hg hgf hr
        refine walk_blocked xs g (cur ++ [y]) hw' ?_ ⟨r, d, hr, hp', ?_⟩
        · intro q to
          by_cases e : cur ++ [y] ++ q = cur ++ [y]
          · rw [e]; exact hg to
          · rw [hgf _ e]; have := hl (y :: q) to; simpa using this
        · rw [hgf _ (by simp [hr])]; simpa using h3
      unfold walk
      rw [if_neg hx.1, if_neg hx.2]
      by_cases hr : r = []
      · subst hr; rw [h3]
      · split
        · exact base _ (.inr hr) (by intro to; rw [set_same]; intro h; cases h) (fun p hp => set_other f _ hp) hr
        · rename_i e; exact base f (.inr hr) (by intro to; rw [e]; intro h; cases h) (fun _ _ => rfl) hr
        · rfl
        · rename_i to e; exact absurd e (hl [y] to)

theorem lastFile_mem {pls : List Place} {q : Path} {d : Text} (h : LastFile pls q d) : (q, some d) ∈ pls := by
  obtain ⟨a, b, rfl, _⟩ := h; simp

theorem lastFile_snoc_same {pls : List Place} {q : Path} {d : Text} {b : Option Text} :
    LastFile (pls ++ [(q, b)]) q d ↔ b = some d := by
  constructor
  · rintro ⟨a, c, e, h⟩
    rcases List.eq_nil_or_concat c with rfl | ⟨c', y, rfl⟩
    · have := List.append_inj' e (by simp)
      simpa using this.2
    · rw [List.concat_eq_append, ← List.cons_append, ← List.append_assoc] at e
      have := (List.append_inj' e (by simp)).2
      simp only [List.cons.injEq, and_true] at this
      exact absurd (by rw [← this]) (h y (by simp))
  · rintro rfl
    exact ⟨pls, [], by simp, by simp⟩

theorem lastFile_snoc_other {pls : List Place} {q : Path} {d : Text} {y : Place} (hy : y.1 ≠ q) :
    LastFile (pls ++ [y]) q d ↔ LastFile pls q d := by
  constructor
  · rintro ⟨a, c, e, h⟩
    rcases List.eq_nil_or_concat c with rfl | ⟨c', z, rfl⟩
    · have := (List.append_inj' e (by simp)).2
      simp only [List.cons.injEq, and_true] at this
      exact absurd (by rw [this]) hy
    · rw [List.concat_eq_append, ← List.cons_append, ← List.append_assoc] at e
      have := (List.append_inj' e (by simp)).1
      exact ⟨a, c', this, fun x hx => h x (by simp [hx])⟩
  · rintro ⟨a, c, rfl, h⟩
    refine ⟨a, c ++ [y], by simp, ?_⟩
    intro x hx
    rcases List.mem_append.1 hx with h' | h'
    · exact h x h'
    · simp at h'; exact h' ▸ hy

theorem lastFile_exists : ∀ {pls : List Place} {q : Path}, (∀ m ∈ pls, m.1 = q → m.2 ≠ none) → (∃ m ∈ pls, m.1 = q) →
    ∃ d, LastFile pls q d := by
  intro pls
  induction hn : pls.length generalizing pls with
  | zero =>
    intro q _ h
    obtain ⟨m, hm, _⟩ := h
    rw [List.length_eq_zero_iff.1 hn] at hm
    simp at hm
  | succ k ih =>
    intro q hs h
    rcases List.eq_nil_or_concat pls with rfl | ⟨l, y, rfl⟩
    · simp at hn
    · rw [List.concat_eq_append] at *
      by_cases hy : y.1 = q
      · cases hb : y.2 with
        | none => exact absurd hb (hs y (by simp) hy)
        | some d =>
          refine ⟨d, ?_⟩
          obtain ⟨y1, y2⟩ := y
          simp only at hy hb
          subst hy; subst hb
          exact lastFile_snoc_same.2 rfl
      · obtain ⟨m, hm, e⟩ := h
        have : m ∈ l := by
          rcases List.mem_append.1 hm with h' | h'
          · exact h'
          · simp at h'; exact absurd (h' ▸ e) hy
        obtain ⟨d, hd⟩ := ih (by simpa using hn) (fun m hm => hs m (by simp [hm])) ⟨m, this, e⟩
        exact ⟨d, (lastFile_snoc_other hy).2 hd⟩

/-- What a member is on the disk. -/
def nodeFor : Option Text → Node
  | some d => .file d
  | none => .dir

/-- A member at its place in a directory in which a coherent archive is laid out. -/
theorem place_step {f : Disk} {target : Path} {pls : List Place} {pl : Place} (h : LaidOut f target pls)
    (hw : Walkable pl.1) (hc : Coherent (pls ++ [pl])) :
    (place f target pl).2 = true ∧ LaidOut (place f target pl).1 target (pls ++ [pl]) := by
  obtain ⟨p, b⟩ := pl
  simp only at hw
  unfold place
  dsimp only
  rcases List.eq_nil_or_concat p with rfl | ⟨i, x, rfl⟩
  · simp only [List.getLast?_nil]
    cases b with
    | some d => exact absurd rfl (hc ([], some d) (by simp) (by simp)).1
    | none =>
      refine ⟨rfl, ⟨?_, ?_, h.link⟩⟩
      · intro q d
        rw [h.file]
        by_cases hq : q = []
        · subst hq
          rw [lastFile_snoc_same]
          constructor
          · intro hl
            exact absurd rfl (hc ([], some d) (by simp [lastFile_mem hl]) (by simp)).1
          · intro e; cases e
        · exact (lastFile_snoc_other (fun e => hq e.symm)).symm
      · intro q
        rw [h.dir]
        constructor
        · rintro (e | ⟨m, hm, hp⟩)
          · exact .inl e
          · exact .inr ⟨m, by simp [hm], hp⟩
        · rintro (e | ⟨m, hm, hp⟩)
          · exact .inl e
          · rcases List.mem_append.1 hm with h' | h'
            · exact .inr ⟨m, h', hp⟩
            · simp at h'; subst h'; exact .inl (by simpa using hp.1)
  · rw [List.concat_eq_append] at *
    have hxw := hw x (by simp)
    have hcl : ∀ m ∈ pls, m.2 ≠ none → m.1 <+: i ++ [x] → i ++ [x] = m.1 ∧ b ≠ none := fun m hm hs hp =>
      (hc m (by simp [hm]) hs).2 (i ++ [x], b) (by simp) hp
    obtain ⟨w1, w2, w3⟩ := walk_spec i f target (fun y hy => hw y (by simp [hy])) h.link (by
      intro r hr hp d e
      have hm := lastFile_mem ((h.file r d).1 e)
      have := (hcl _ hm (by simp) (hp.trans (List.prefix_append ..))).1
      have h1 := hp.length_le
      have h2 := congrArg List.length this
      simp at h1 h2
      omega)
    simp only [List.getLast?_concat, List.dropLast_concat]
    generalize walk f target i = w at w1 w2 w3
    obtain ⟨g, r⟩ := w
    dsimp only at w1 w2 w3
    subst w1
    dsimp only
    have hnot : ∀ q, ¬ (q ≠ [] ∧ q <+: i) → g (target ++ q) = f (target ++ q) := by
      intro q hq
      refine w3 _ ?_
      intro r hr hp e
      have := List.append_cancel_left e
      subst this
      exact hq ⟨hr, hp⟩
    have hself : g (target ++ (i ++ [x])) = f (target ++ (i ++ [x])) := hnot _ (fun hh => by
      have := hh.2.length_le; simp at this; omega)
    rw [← List.append_assoc] at hself
    -- what is left to show, for the disk in which the member is there
    have final : ∀ g' : Disk, g' (target ++ i ++ [x]) = some (nodeFor b) →
        (∀ q, q ≠ target ++ i ++ [x] → g' q = g q) → LaidOut g' target (pls ++ [(i ++ [x], b)]) := by
      intro g' hg hgo
      have hq' : ∀ q, q ≠ i ++ [x] → g' (target ++ q) = g (target ++ q) := by
        intro q hq
        refine hgo _ fun e => hq ?_
        rw [List.append_assoc] at e
        exact List.append_cancel_left e
      have hgp : g' (target ++ (i ++ [x])) = some (nodeFor b) := by
        rw [← List.append_assoc]; exact hg
      refine ⟨?_, ?_, ?_⟩
      · intro q d
        by_cases hq : q = i ++ [x]
        · subst hq
          rw [hgp, lastFile_snoc_same]
          cases b <;> simp [nodeFor]
        · rw [hq' q hq, lastFile_snoc_other (fun e => hq e.symm)]
          by_cases hpre : q ≠ [] ∧ q <+: i
          · rw [w2 q hpre.1 hpre.2]
            constructor
            · intro e; cases e
            · intro hl
              exact absurd (hcl _ (lastFile_mem hl) (by simp) (hpre.2.trans (List.prefix_append ..))).1.symm hq
          · rw [hnot q hpre]; exact h.file q d
      · intro q
        by_cases hq : q = i ++ [x]
        · subst hq
          rw [hgp]
          cases b with
          | none => simp only [nodeFor, true_iff]; exact .inr ⟨(i ++ [x], none), by simp, List.prefix_refl _, fun _ => rfl⟩
          | some d =>
            constructor
            · intro e; cases e
            · rintro (e | ⟨m, hm, hp, hi⟩)
              · simp at e
              · have := (hc (i ++ [x], some d) (by simp) (by simp)).2 m hm hp
                exact absurd (hi this.1) this.2
        · rw [hq' q hq]
          by_cases hpre : q ≠ [] ∧ q <+: i
          · rw [w2 q hpre.1 hpre.2]
            simp only [true_iff]
            exact .inr ⟨(i ++ [x], b), by simp, hpre.2.trans (List.prefix_append ..), fun e => absurd e.symm hq⟩
          · rw [hnot q hpre, h.dir]
            constructor
            · rintro (e | ⟨m, hm, hp⟩)
              · exact .inl e
              · exact .inr ⟨m, by simp [hm], hp⟩
            · rintro (e | ⟨m, hm, hp⟩)
              · exact .inl e
              · rcases List.mem_append.1 hm with h' | h'
                · exact .inr ⟨m, h', hp⟩
                · simp only [List.mem_singleton] at h'
                  subst h'
                  rcases List.prefix_concat_iff.1 hp.1 with e | e
                  · exact absurd e hq
                  · by_cases hn : q = []
                    · exact .inl hn
                    · exact absurd ⟨hn, e⟩ hpre
      · intro q to
        by_cases hq : q = i ++ [x]
        · subst hq; rw [hgp]; cases b <;> simp [nodeFor]
        · rw [hq' q hq]
          by_cases hpre : q ≠ [] ∧ q <+: i
          · rw [w2 q hpre.1 hpre.2]; simp
          · rw [hnot q hpre]; exact h.link q to
    cases b with
    | some d =>
      dsimp only
      have hnd : g (target ++ i ++ [x]) ≠ some .dir := by
        rw [hself, List.append_assoc]
        intro e
        rcases (h.dir _).1 e with e | ⟨m, hm, hp, hi⟩
        · simp at e
        · have := (hc (i ++ [x], some d) (by simp) (by simp)).2 m (by simp [hm]) hp
          exact absurd (hi this.1) this.2
      have hnl : ∀ to, g (target ++ i ++ [x]) ≠ some (.link to) := by
        intro to; rw [hself, List.append_assoc]; exact h.link _ to
      have : writeFile g (target ++ i) x d = (g.set (target ++ i ++ [x]) (.file d), true) := by
        unfold writeFile
        rw [if_neg (by simp only [not_or]; exact hxw)]
        split
        · rename_i e; exact absurd e hnd
        · rename_i to e; exact absurd e (hnl to)
        · rfl
      rw [this]
      exact ⟨rfl, final _ (set_same ..) (fun q hq => set_other g _ hq)⟩
    | none =>
      dsimp only
      have hnf : ∀ d, g (target ++ i ++ [x]) ≠ some (.file d) := by
        intro d
        rw [hself, List.append_assoc]
        intro e
        exact absurd rfl (hcl _ (lastFile_mem ((h.file _ d).1 e)) (by simp) (List.prefix_refl _)).2
      have hnl : ∀ to, g (target ++ i ++ [x]) ≠ some (.link to) := by
        intro to; rw [hself, List.append_assoc]; exact h.link _ to
      unfold zipDir
      split
      · exact ⟨rfl, final _ (set_same ..) (fun q hq => set_other g _ hq)⟩
      · rename_i e; exact ⟨rfl, final g e (fun _ _ => rfl)⟩
      · rename_i d e; exact absurd e (hnf d)
      · rename_i to e; exact absurd e (hnl to)

/-- A member can be put at its place only if the archive stays coherent. -/
theorem place_coherent {f : Disk} {target : Path} {pls : List Place} {pl : Place} (h : LaidOut f target pls)
    (hw : Walkable pl.1) (hc : Coherent pls) (hok : (place f target pl).2 = true) : Coherent (pls ++ [pl]) := by
  obtain ⟨p, b⟩ := pl
  simp only at hw
  -- there is a file where a member is a file
  have isFile : ∀ m ∈ pls, m.2 ≠ none → ∃ d, f (target ++ m.1) = some (.file d) := by
    intro m hm hs
    obtain ⟨d, hd⟩ := lastFile_exists (pls := pls) (q := m.1)
      (fun m' hm' e => ((hc m hm hs).2 m' hm' (by rw [e]; exact List.prefix_refl _)).2) ⟨m, hm, rfl⟩
    exact ⟨d, (h.file _ d).2 hd⟩
  unfold place at hok
  dsimp only at hok
  rcases List.eq_nil_or_concat p with rfl | ⟨i, x, rfl⟩
  · simp only [List.getLast?_nil] at hok
    have hb : b = none := by cases b with | none => rfl | some d => simp at hok
    subst hb
    intro m hm hs
    rcases List.mem_append.1 hm with h' | h'
    · refine ⟨(hc m h' hs).1, ?_⟩
      intro m' hm' hp
      rcases List.mem_append.1 hm' with h'' | h''
      · exact (hc m h' hs).2 m' h'' hp
      · simp only [List.mem_singleton] at h''
        subst h''
        exact absurd (by simpa using hp) (hc m h' hs).1
    · simp only [List.mem_singleton] at h'
      subst h'
      exact absurd rfl hs
  · rw [List.concat_eq_append] at *
    simp only [List.getLast?_concat, List.dropLast_concat] at hok
    have hxw := hw x (by simp)
    have hwi : Walkable i := fun y hy => hw y (by simp [hy])
    have clear : ∀ r, r ≠ [] → r <+: i → ∀ d, f (target ++ r) ≠ some (.file d) := by
      intro r hr hp d e
      have := walk_blocked i f target hwi h.link ⟨r, d, hr, hp, e⟩
      generalize walk f target i = w at this hok
      obtain ⟨g, o⟩ := w
      dsimp only at this
      subst this
      simp at hok
    obtain ⟨w1, w2, w3⟩ := walk_spec i f target hwi h.link clear
    have hself : (walk f target i).1 (target ++ i ++ [x]) = f (target ++ (i ++ [x])) := by
      rw [List.append_assoc]
      refine w3 _ ?_
      intro r hr hp e
      have := List.append_cancel_left e
      have h1 := hp.length_le
      have h2 := congrArg List.length this
      simp at h1 h2
      omega
    generalize walk f target i = w at w1 w2 w3 hok hself
    obtain ⟨g, o⟩ := w
    dsimp only at w1 w2 w3 hself
    subst w1
    dsimp only at hok
    intro m hm hs
    rcases List.mem_append.1 hm with h' | h'
    · refine ⟨(hc m h' hs).1, ?_⟩
      intro m' hm' hp
      rcases List.mem_append.1 hm' with h'' | h''
      · exact (hc m h' hs).2 m' h'' hp
      · simp only [List.mem_singleton] at h''
        subst h''
        obtain ⟨d, hd⟩ := isFile m h' hs
        rcases List.prefix_concat_iff.1 hp with e | e
        · refine ⟨e.symm, ?_⟩
          intro hb
          dsimp only at hb
          subst hb
          dsimp only at hok
          rw [e] at hd
          rw [hd] at hself
          unfold zipDir at hok
          rw [hself] at hok
          simp at hok
        · exact absurd hd (clear m.1 (hc m h' hs).1 e d)
    · simp only [List.mem_singleton] at h'
      subst h'
      refine ⟨by simp, ?_⟩
      intro m' hm' hp
      rcases List.mem_append.1 hm' with h'' | h''
      · dsimp only at hs hp
        cases b with
        | none => exact absurd rfl hs
        | some d =>
          dsimp only at hok
          by_cases hd : f (target ++ (i ++ [x])) = some .dir
          · rw [hd] at hself
            unfold writeFile at hok
            rw [if_neg (by simp only [not_or]; exact hxw), hself] at hok
            simp at hok
          · have := fun hx => hd ((h.dir _).2 (.inr ⟨m', h'', hp, hx⟩))
            refine ⟨Classical.byContradiction fun e => this (fun e' => absurd e' e), fun e => this (fun _ => e)⟩
      · simp only [List.mem_singleton] at h''
        subst h''
        exact ⟨rfl, hs⟩

theorem coherent_prefix {a b : List Place} (h : Coherent (a ++ b)) : Coherent a := fun m hm hs =>
  ⟨(h m (by simp [hm]) hs).1, fun m' hm' => (h m (by simp [hm]) hs).2 m' (by simp [hm'])⟩

/-- All the members. -/
theorem extractAll_places {target : Path} {one : Disk → Member → Disk × Bool} :
    ∀ (mps : List (Member × Place)) (f : Disk) (pls : List Place), LaidOut f target pls → (∀ x ∈ mps, Walkable x.2.1) →
    (∀ x ∈ mps, ∀ f pls, LaidOut f target pls → Coherent (pls ++ [x.2]) → one f x.1 = place f target x.2) →
    Coherent (pls ++ mps.map (·.2)) →
    (extractAll one f (mps.map (·.1))).2 = true ∧ LaidOut (extractAll one f (mps.map (·.1))).1 target (pls ++ mps.map (·.2))
  | [], f, pls, h, _, _, _ => by simpa [extractAll] using h
  | x :: mps, f, pls, h, hw, hone, hc => by
    have hc' : Coherent (pls ++ [x.2] ++ mps.map (·.2)) := by simpa using hc
    have e := hone x (by simp) f pls h (coherent_prefix hc')
    obtain ⟨h1, h2⟩ := place_step h (hw x (by simp)) (coherent_prefix hc')
    rw [List.map_cons]
    unfold extractAll
    rw [e]
    generalize place f target x.2 = w at h1 h2
    obtain ⟨g, o⟩ := w
    dsimp only at h1 h2
    subst h1
    have := extractAll_places mps g (pls ++ [x.2]) h2 (fun y hy => hw y (by simp [hy])) (fun y hy => hone y (by simp [hy])) hc'
    simpa using this

theorem extractAll_zip_coherent {target : Path} : ∀ (ms : List Member) (f : Disk) (pls : List Place), LaidOut f target pls →
    Coherent pls → (extractAll (fun f m => zipMember f target m) f ms).2 = true → Coherent (pls ++ ms.map zipPlace)
  | [], f, pls, h, hc, _ => by simpa using hc
  | m :: ms, f, pls, h, hc, hok => by
    unfold extractAll at hok
    rw [zipMember_place] at hok
    by_cases h1 : (place f target (zipPlace m)).2 = true
    · have hc' := place_coherent h (zipNames_walkable m.name) hc h1
      have h2 := (place_step h (zipNames_walkable m.name) hc').2
      generalize place f target (zipPlace m) = w at h1 h2 hok
      obtain ⟨g, o⟩ := w
      dsimp only at h1 h2
      subst h1
      have := extractAll_zip_coherent ms g _ h2 hc' hok
      simpa using this
    · generalize place f target (zipPlace m) = w at h1 hok
      obtain ⟨g, o⟩ := w
      cases o with
      | true => exact absurd rfl h1
      | false => simp at hok

theorem laidOut_nil {f : Disk} {target : Path} (hd : f target = some .dir) (he : EmptyBelow f target) : LaidOut f target [] := by
  have h0 : ∀ q, f (target ++ q) = if q = [] then some .dir else none := by
    intro q
    by_cases hq : q = []
    · subst hq; simpa using hd
    · rw [if_neg hq]; exact he q hq
  refine ⟨?_, ?_, ?_⟩
  · intro q d
    rw [h0]
    constructor
    · intro e; split at e <;> cases e
    · intro h; have := lastFile_mem h; simp at this
  · intro q
    rw [h0]
    by_cases hq : q = [] <;> simp [hq]
  · intro q to
    rw [h0]
    split <;> simp

/-! ### Names -/

theorem names_slashed : ∀ (p : Path) (r : Text), p ≠ [] → (∀ x ∈ p, CleanName x) → r = [] ∨ r = ['/'] →
    names (slashed p ++ r) = p
  | [x], r, _, hx, hr => by
    have hc := hx x (by simp)
    rcases hr with rfl | rfl
    · simp only [slashed, List.append_nil, names]
      rw [Tags.splitOn_one _ _ hc.2.1]
      simp [hc.1]
    · simp only [slashed, names]
      rw [Tags.splitOn_step _ _ _ hc.2.1]
      simp [hc.1, splitOn]
  | x :: y :: xs, r, _, hx, hr => by
    have hc := hx x (by simp)
    have ih := names_slashed (y :: xs) r (by simp) (fun z hz => hx z (by simp [hz])) hr
    simp only [slashed, names, List.append_assoc, List.cons_append] at ih ⊢
    rw [Tags.splitOn_step _ _ _ hc.2.1, List.filter_cons, if_pos (by simp [hc.1]), ih]

theorem slashed_head {p : Path} (hne : p ≠ []) (h : ∀ x ∈ p, CleanName x) (r : Text) : (slashed p ++ r).head? ≠ some '/' := by
  match p, hne with
  | [x], _ =>
    have hc := h x (by simp)
    cases x with
    | nil => exact absurd rfl hc.1
    | cons c x => simp [slashed]; rintro rfl; exact hc.2.1 (by simp)
  | x :: y :: xs, _ =>
    have hc := h x (by simp)
    cases x with
    | nil => exact absurd rfl hc.1
    | cons c x => simp [slashed]; rintro rfl; exact hc.2.1 (by simp)

theorem slashed_last : ∀ {p : Path}, p ≠ [] → (∀ x ∈ p, CleanName x) → (slashed p).getLast? ≠ some '/'
  | [x], _, h => by
    have hc := h x (by simp)
    simp only [slashed]
    intro e
    exact hc.2.1 (List.mem_of_getLast? e)
  | x :: y :: xs, _, h => by
    have ih := slashed_last (p := y :: xs) (by simp) (fun z hz => h z (by simp [hz]))
    simp only [slashed]
    rw [List.getLast?_append]
    cases hs : slashed (y :: xs) with
    | nil =>
      exfalso
      match xs with
      | [] => exact (h y (by simp)).1 (by simpa [slashed] using hs)
      | z :: zs => simp [slashed] at hs
    | cons c cs =>
      rw [hs] at ih
      have : ('/' :: c :: cs).getLast? = (c :: cs).getLast? := by simp [List.getLast?_cons_cons]
      rw [this]
      obtain ⟨l, hl⟩ : ∃ l, (c :: cs).getLast? = some l := ⟨_, List.getLast?_eq_some_getLast (by simp)⟩
      rw [hl] at ih ⊢
      simpa using ih

theorem zipPlace_named {m : Member} {pl : Place} (h : NamedAs false m pl) : zipPlace m = pl := by
  obtain ⟨p, b⟩ := pl
  obtain ⟨hne, hc, hb⟩ := h
  dsimp only at hne hc hb
  have filt : ∀ l : List Text, (∀ x ∈ l, CleanName x) → l.filter (fun x => x ≠ t!"." ∧ x ≠ t!"..") = l := by
    intro l hl
    refine List.filter_eq_self.2 fun x hx => ?_
    have := hl x hx
    simpa using this.2.2
  cases b with
  | some d =>
    dsimp only at hb
    subst hb
    have hn := names_slashed p [] hne hc (.inl rfl)
    rw [List.append_nil] at hn
    have hz : zipIsDir (slashed p) = false := by
      have hl := slashed_last hne hc
      unfold zipIsDir
      simpa using hl
    simp only [zipPlace, zipNames, hn, filt p hc, hz, dataOf]
    rfl
  | none =>
    obtain ⟨_, hb | ⟨h', _⟩⟩ := hb
    · have hn := names_slashed p ['/'] hne hc (.inr rfl)
      have hz : zipIsDir (slashed p ++ ['/']) = true := by simp [zipIsDir]
      simp only [zipPlace, zipNames, hb, hn, filt p hc, hz]
      rfl
    · cases h'

theorem tarMember_place {f : Disk} {target : Path} {pls : List Place} {m : Member} {pl : Place} (hs : NamedAs true m pl)
    (h : LaidOut f target pls) (hc : Coherent (pls ++ [pl])) : tarMember f target m = place f target pl := by
  obtain ⟨p, b⟩ := pl
  obtain ⟨hne, hcl, hb⟩ := hs
  dsimp only at hne hcl hb
  have hname : names m.name = p ∧ start target m.name = target := by
    have key : ∀ r : Text, r = [] ∨ r = ['/'] → m.name = slashed p ++ r → names m.name = p ∧ start target m.name = target := by
      intro r hr e
      refine ⟨by rw [e]; exact names_slashed p r hne hcl hr, ?_⟩
      have := slashed_head hne hcl r
      rw [← e] at this
      unfold start
      split
      · rename_i e'; rw [e'] at this; exact absurd rfl this
      · rfl
    cases b with
    | some d => exact key [] (.inl rfl) (by rw [hb]; simp)
    | none =>
      rcases hb.2 with e | ⟨_, e⟩
      · exact key _ (.inr rfl) e
      · exact key [] (.inl rfl) (by rw [e]; simp)
  have hw : Walkable p := fun x hx => (hcl x hx).2.2
  rcases List.eq_nil_or_concat p with rfl | ⟨i, x, rfl⟩
  · exact absurd rfl hne
  · rw [List.concat_eq_append] at *
    unfold tarMember place
    rw [hname.1, hname.2]
    simp only [List.getLast?_concat, List.dropLast_concat]
    have hxw := hw x (by simp)
    cases b with
    | some d =>
      dsimp only at hb
      subst hb
      rfl
    | none =>
      rw [hb.1]
      dsimp only
      have hst := (place_step h hw hc).1
      unfold place at hst
      simp only [List.getLast?_concat, List.dropLast_concat] at hst
      generalize hwk : walk f target i = w at hst
      obtain ⟨g, o⟩ := w
      cases o with
      | none => rfl
      | some c =>
        dsimp only at hst ⊢
        have hnl : ∀ to, g (c ++ [x]) ≠ some (.link to) := by
          obtain ⟨_, h2, h3⟩ := walk_confined (target := target) i f target (List.prefix_refl _)
            (fun hm => (hw _ (List.mem_append_left _ hm)).2 rfl) h.link
          rw [hwk] at h2 h3
          obtain ⟨q, hq⟩ := h3 c rfl
          intro to
          rw [← hq, List.append_assoc]
          exact h2 _ to
        unfold zipDir at hst
        unfold tarDir zipDir
        rw [if_neg (by simp only [not_or]; exact hxw)]
        cases hg : g (c ++ [x]) with
        | none => rfl
        | some n =>
          cases n with
          | dir => rfl
          | file d => rw [hg] at hst; simp at hst
          | link to => exact absurd hg (hnl to)

theorem inward_named {m : Member} {pl : Place} (h : NamedAs true m pl) : Inward m := by
  obtain ⟨p, b⟩ := pl
  obtain ⟨hne, hc, hb⟩ := h
  dsimp only at hne hc hb
  have key : ∀ r : Text, r = [] ∨ r = ['/'] → m.name = slashed p ++ r → (∀ to, m.body ≠ .link to) → Inward m := by
    intro r hr e hl
    refine ⟨by rw [e]; exact slashed_head hne hc r, ?_, hl⟩
    intro hm
    have : t!".." ∈ names m.name := List.mem_filter.2 ⟨hm, by decide⟩
    rw [e, names_slashed p r hne hc hr] at this
    exact (hc _ this).2.2.2 rfl
  cases b with
  | some d => exact key [] (.inl rfl) (by rw [hb]; simp) (by rw [hb]; simp)
  | none =>
    rcases hb.2 with e | ⟨_, e⟩
    · exact key _ (.inr rfl) e (by rw [hb.1]; simp)
    · exact key [] (.inl rfl) (by rw [e]; simp) (by rw [hb.1]; simp)

end Archives

open Spec Archives

/-- C111: whatever is in a zip file or a wheel, unpacking it changes nothing outside of the directory, also if it fails. -/
theorem zip_confined (f : Disk) (n : Text) (ms : List Member) (target : Path) (ht : RealTarget f target) (hl : NoLinks f target)
    (hn : ZipFileName n) : SameOutside f (extract f n ms target).1 target := by
  rw [extract_zip ht hn, toResult_fst]
  exact (extractAll_confined ms f (fun m _ f hf => zipMember_confined hf m) hl).1

/-- C111: unpacking a tar file changes nothing outside of the directory if no name is absolute or has `..`, and if there are
no links. -/
theorem tar_confined_partial (f : Disk) (n : Text) (ms : List Member) (target : Path) (ht : RealTarget f target)
    (hl : NoLinks f target) (hn : TarFileName n) (hi : ∀ m ∈ ms, Inward m) : SameOutside f (extract f n ms target).1 target := by
  rw [extract_tar ht hn, toResult_fst]
  exact (extractAll_confined ms f (fun m hm f hf => tarMember_confined hf m (hi m hm)) hl).1

theorem target_dir {f : Disk} {target : Path} (ht : RealTarget f target) (hne : target ≠ []) : f target = some .dir :=
  ht.2 target hne (List.prefix_refl _)

/-- C111: unpacking an archive whose members have ordinary names into a new directory succeeds, and the directory then has
exactly the files and directories of the archive, if no file of it is also a directory. -/
theorem extract_lays_out (f : Disk) (n : Text) (archive : List (Member × Place)) (target : Path) (ht : RealTarget f target)
    (hne : target ≠ []) (he : EmptyBelow f target)
    (hn : (ZipFileName n ∧ ∀ x ∈ archive, NamedAs false x.1 x.2) ∨ (TarFileName n ∧ ∀ x ∈ archive, NamedAs true x.1 x.2))
    (hc : Coherent (archive.map (·.2))) :
    (extract f n (archive.map (·.1)) target).2 = .done ∧
      LaidOut (extract f n (archive.map (·.1)) target).1 target (archive.map (·.2)) ∧
      SameOutside f (extract f n (archive.map (·.1)) target).1 target := by
  have h0 := laidOut_nil (target_dir ht hne) he
  rcases hn with ⟨hz, hm⟩ | ⟨hz, hm⟩
  · obtain ⟨h1, h2⟩ := extractAll_places (one := fun f m => zipMember f target m) archive f [] h0
      (fun x hx y hy => ((hm x hx).2.1 y hy).2.2)
      (fun x hx f _ _ _ => by rw [zipMember_place, zipPlace_named (hm x hx)]) (by simpa using hc)
    refine ⟨?_, ?_, zip_confined f n _ target ht h0.link hz⟩
    · rw [extract_zip ht hz, toResult_done]; exact h1
    · rw [extract_zip ht hz, toResult_fst]; simpa using h2
  · obtain ⟨h1, h2⟩ := extractAll_places (one := fun f m => tarMember f target m) archive f [] h0
      (fun x hx y hy => ((hm x hx).2.1 y hy).2.2)
      (fun x hx f _ h hc => tarMember_place (hm x hx) h hc) (by simpa using hc)
    refine ⟨?_, ?_, tar_confined_partial f n _ target ht h0.link hz ?_⟩
    · rw [extract_tar ht hz, toResult_done]; exact h1
    · rw [extract_tar ht hz, toResult_fst]; simpa using h2
    · intro m hm'
      obtain ⟨x, hx, rfl⟩ := List.mem_map.1 hm'
      exact inward_named (hm x hx)

/-- C111: unpacking a zip file, whatever the names in it, into a new directory succeeds exactly if no file of it is also a
directory or has something below it; empty parts of names, `.` and `..` do not count. Then its files are laid out. -/
theorem zip_done_iff (f : Disk) (n : Text) (ms : List Member) (target : Path) (ht : RealTarget f target) (hne : target ≠ [])
    (he : EmptyBelow f target) (hn : ZipFileName n) (pls : List Place)
    (hp : pls = ms.map (fun m => ((splitOn '/' m.name).filter (fun x => x ≠ [] ∧ x ≠ t!"." ∧ x ≠ t!".."),
      if m.name.getLast? = some '/' then none else some (dataOf m.body)))) :
    ((extract f n ms target).2 = .done ↔ Coherent pls) ∧ (Coherent pls → LaidOut (extract f n ms target).1 target pls) := by
  have hpl : pls = ms.map zipPlace := by
    rw [hp]
    refine List.map_congr_left fun m _ => ?_
    simp only [zipPlace, zipNames, names, List.filter_filter, zipIsDir, beq_iff_eq]
    congr 2
    funext x
    simp only [Bool.decide_and]
    cases decide (x ≠ []) <;> simp
  subst hpl
  have h0 := laidOut_nil (target_dir ht hne) he
  rw [extract_zip ht hn, toResult_fst, toResult_done]
  have hmap : (ms.map (fun m => (m, zipPlace m))).map (·.1) = ms ∧ (ms.map (fun m => (m, zipPlace m))).map (·.2) = ms.map zipPlace := by
    constructor <;> simp [Function.comp_def]
  have key : Coherent (ms.map zipPlace) → _ := fun hc =>
    extractAll_places (one := fun f m => zipMember f target m) (ms.map (fun m => (m, zipPlace m))) f [] h0
      (by intro x hx; obtain ⟨m, _, rfl⟩ := List.mem_map.1 hx; exact zipNames_walkable m.name)
      (by intro x hx f _ _ _; obtain ⟨m, _, rfl⟩ := List.mem_map.1 hx; exact zipMember_place f target m)
      (by rw [hmap.2]; simpa using hc)
  rw [hmap.1, hmap.2] at key
  refine ⟨⟨fun h => ?_, fun hc => (key hc).1⟩, fun hc => by simpa using (key hc).2⟩
  have := extractAll_zip_coherent ms f [] h0 (by intro m hm; simp at hm) h
  simpa using this

/-- C111: the kind of an archive is taken from the end of its name, and other names are refused before anything is
unpacked. -/
theorem extract_unsupported_iff (f : Disk) (n : Text) (ms : List Member) (target : Path) (ht : RealTarget f target) :
    ((extract f n ms target).2 = .unsupported ↔ ¬ (ZipFileName n ∨ TarFileName n)) ∧
      ((extract f n ms target).2 = .unsupported → (extract f n ms target).1 = f) := by
  by_cases hz : ZipFileName n
  · rw [extract_zip ht hz]
    exact ⟨by simp [hz, toResult_supported], fun h => absurd h (toResult_supported _)⟩
  · by_cases htar : TarFileName n
    · rw [extract_tar ht htar]
      exact ⟨by simp [htar, toResult_supported], fun h => absurd h (toResult_supported _)⟩
    · have : extract f n ms target = (f, .unsupported) := by
        unfold extract
        rw [walk_real target [] f ht.1 (by simpa using ht.2)]
        dsimp only
        simp only [ZipFileName, TarFileName, not_or] at hz htar
        rw [if_neg (by simpa using hz), if_neg (by simpa using htar.1), if_neg (by simpa using htar.2)]
      rw [this]
      exact ⟨by simp [hz, htar], fun _ => rfl⟩

/-- C111: the client keeps the data of a URL in a file with the name of the artifact, so that this name decides how it is
unpacked. -/
theorem url_data_named (url : Text) : urlData url = urlArtifact url := by
  have key : ∀ t : Text, names (t.dropWhile (· == '/')) = names t := by
    intro t
    induction t with
    | nil => rfl
    | cons c t ih =>
      rw [List.dropWhile_cons]
      split
      · rename_i h
        have : c = '/' := by simpa using h
        subst this
        rw [ih]
        simp [names, splitOn]
      · rfl
  unfold urlData urlArtifact pathName
  simp only [key]

/-- C111: the name of the artifact is what follows the last slash of the path of the URL, whatever the query is. -/
theorem url_artifact_named (url : Text) (u : Http.Url) (d n : Text) (h : Http.Url.parse url = some u) (hp : u.path = d ++ '/' :: n)
    (hs : '/' ∉ n) (h0 : n ≠ []) (h1 : n ≠ t!".") : urlArtifact url = some n := by
  have key : ∀ d : Text, ∃ l, splitOn '/' (d ++ '/' :: n) = l ++ [n] := by
    intro d
    induction d with
    | nil => exact ⟨[[]], by simp [splitOn, Tags.splitOn_one '/' n hs]⟩
    | cons c d ih =>
      obtain ⟨l, hl⟩ := ih
      by_cases hc : c = '/'
      · exact ⟨[] :: l, by simp [splitOn, hc, hl]⟩
      · cases l with
        | nil => exact absurd (congrArg List.length hl) (by
            have : ∀ t : Text, 2 ≤ (splitOn '/' (t ++ '/' :: n)).length := by
              intro t
              induction t with
              | nil => simp [splitOn, Tags.splitOn_one '/' n hs]
              | cons x t ih =>
                simp only [List.cons_append, splitOn]
                split
                · simp; omega
                · split
                  · rename_i h; rw [h] at ih; simp at ih
                  · rename_i h; rw [h] at ih; simpa using ih
            have := this d
            simp only [List.nil_append, List.length_cons, List.length_nil]
            omega)
        | cons x l => exact ⟨(c :: x) :: l, by simp [splitOn, hc, hl]⟩
  obtain ⟨l, hl⟩ := key d
  simp [urlArtifact, h, pathName, names, hp, hl, h0, h1, List.filter_append]

example : urlArtifact t!"https://x.org/pkgs/a-1.0.zip?sig=1/2" = some t!"a-1.0.zip" :=
  url_artifact_named _ _ t!"/pkgs" t!"a-1.0.zip" rfl (by decide) (by decide) (by decide) (by decide)

/-! ### Examples and violations -/

namespace ArchiveExample

/-- A disk with some directories and a file. -/
def disk : Disk := fun p =>
  if p = [t!"tmp"] ∨ p = [t!"tmp", t!"x"] ∨ p = [t!"etc"] then some .dir
  else if p = [t!"etc", t!"passwd"] then some (.file t!"root") else none

def target : Path := [t!"tmp", t!"x"]

/-- A small archive, with its places. -/
def archive : List (Member × Place) :=
  [(⟨t!"p-1/", .dir⟩, ([t!"p-1"], none)), (⟨t!"p-1/setup.py", .file t!"old"⟩, ([t!"p-1", t!"setup.py"], some t!"old")),
    (⟨t!"p-1/src/p.py", .file t!"x"⟩, ([t!"p-1", t!"src", t!"p.py"], some t!"x")),
    (⟨t!"p-1/setup.py", .file t!"new"⟩, ([t!"p-1", t!"setup.py"], some t!"new"))]

theorem real : RealTarget disk target ∧ EmptyBelow disk target ∧ NoLinks disk target := by
  refine ⟨⟨by decide, ?_⟩, ?_, ?_⟩
  · intro q hq hp
    rcases q with _ | ⟨a, _ | ⟨b, q⟩⟩
    · exact absurd rfl hq
    · have := List.cons_prefix_cons.1 hp
      rw [this.1]; decide
    · obtain ⟨ha, hp1⟩ := List.cons_prefix_cons.1 hp
      obtain ⟨hb, hp2⟩ := List.cons_prefix_cons.1 hp1
      have : q = [] := by simpa using hp2
      rw [ha, hb, this]
      decide
  · intro q hq
    cases q with
    | nil => exact absurd rfl hq
    | cons a q => simp [disk, target]
  · intro q to
    simp only [disk]
    split
    · simp
    · split <;> simp

end ArchiveExample
open ArchiveExample

/-- The hypotheses hold of the small archive, as a zip file and as a tar file. -/
example : (∀ x ∈ archive, NamedAs false x.1 x.2) ∧ (∀ x ∈ archive, NamedAs true x.1 x.2) ∧ Coherent (archive.map (·.2)) := by
  refine ⟨?_, ?_, ?_⟩
  · simp [archive, NamedAs, slashed, CleanName]
  · simp [archive, NamedAs, slashed, CleanName]
  · simp [archive, Coherent]

example : (extract disk t!"p-1.tar.gz" (archive.map (·.1)) target).1 [t!"tmp", t!"x", t!"p-1", t!"setup.py"] = some (.file t!"new") ∧
    (extract disk t!"p-1.zip" (archive.map (·.1)) target).1 [t!"tmp", t!"x", t!"p-1", t!"src"] = some .dir := by decide +kernel

/-- A zip file with names that would lead out. -/
example : (extract disk t!"p.whl" [⟨t!"../../etc/passwd", .file t!"bad"⟩, ⟨t!"/etc/passwd", .file t!"worse"⟩] target).1
      [t!"tmp", t!"x", t!"etc", t!"passwd"] = some (.file t!"worse") ∧
    (extract disk t!"p.whl" [⟨t!"../../etc/passwd", .file t!"bad"⟩] target).1 [t!"etc", t!"passwd"] = some (.file t!"root") := by
  decide +kernel

/-- C111: a tar file can overwrite files outside of the directory, with `..`, with an absolute name, and with a link
followed by a file below it. -/
theorem tar_escapes_violated : ∃ (f : Disk) (target : Path), RealTarget f target ∧ EmptyBelow f target ∧
    f [t!"etc", t!"passwd"] = some (.file t!"root") ∧
    ∀ ms ∈ [[⟨t!"../../etc/passwd", .file t!"bad"⟩], [⟨t!"/etc/passwd", .file t!"bad"⟩],
        [⟨t!"a", .link t!"/etc"⟩, ⟨t!"a/passwd", .file t!"bad"⟩], [⟨t!"a", .link t!"../../etc/passwd"⟩, ⟨t!"a", .file t!"bad"⟩]],
      (extract f t!"p-1.tar.gz" ms target).2 = .done ∧ ¬ target <+: [t!"etc", t!"passwd"] ∧
        (extract f t!"p-1.tar.gz" ms target).1 [t!"etc", t!"passwd"] = some (.file t!"bad") :=
  ⟨disk, target, real.1, real.2.1, by decide +kernel, by decide +kernel⟩

/-- C111: not all archives that packages are published in are supported, and a URL may name its file in the query: such a
package counts as a source distribution that cannot be unpacked. -/
theorem archive_unsupported_violated :
    (∀ ms, (extract disk t!"p-1.tgz" ms target).2 = .unsupported) ∧ (∀ ms, (extract disk t!"p-1.tar.xz" ms target).2 = .unsupported) ∧
    (∀ ms, (extract disk t!"P-1.ZIP" ms target).2 = .unsupported) ∧
    urlArtifact t!"https://h.org/get?file=p-1.tar.gz" = some t!"get" ∧ isBinary t!"get" = false ∧
    ∀ ms, (extract disk t!"get" ms target).2 = .unsupported := by
  refine ⟨?_, ?_, ?_, by decide +kernel, by decide, ?_⟩ <;>
    (intro ms; refine (extract_unsupported_iff disk _ ms target real.1).1.2 ?_; simp only [ZipFileName, TarFileName]; decide)

/-- C111: two members of a zip file may become one file: the names `a` and `../a` are the same. -/
theorem zip_merged_violated : (extract disk t!"p.zip" [⟨t!"a", .file t!"1"⟩, ⟨t!"../a", .file t!"2"⟩] target).2 = .done ∧
    (extract disk t!"p.zip" [⟨t!"a", .file t!"1"⟩, ⟨t!"../a", .file t!"2"⟩] target).1 [t!"tmp", t!"x", t!"a"] = some (.file t!"2") := by
  decide +kernel

end Pkm
