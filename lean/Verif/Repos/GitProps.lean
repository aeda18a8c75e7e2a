import Verif.Repos.Git
import Verif.Http.UrlProps
import Verif.Tags.Lemmas
import Verif.VersionText.Props
/-
Property C73: a git requirement gives the branch that it names.
-/
set_option linter.unusedVariables false
set_option linter.unusedSimpArgs false

namespace Pkm

namespace Spec
open Http (Url)

/-- What a remote has at an address for a branch, or without one. -/
def RemoteHas (rem : Git.Remote) (address : Text) (branch : Option Text) (c : Git.Commit) : Prop :=
  match branch with
  | none => rem.clone address = some c
  | some b => rem.checkout address b = some c

/-- A request: the remotes at its time, the package, the address and the branch. -/
structure GitReq where
  rem : Git.Remote
  dep : Text
  u : Url
  branch : Option Text

/-- The text of the url in the requirement. -/
def GitReq.text (r : GitReq) : Text :=
  match r.branch with
  | none => r.u.str
  | some b => r.u.str ++ '@' :: b

/-- A part of a path: a name. -/
def PathName (s : Text) : Prop := s ≠ [] ∧ s ≠ ['.'] ∧ s ≠ ['.', '.'] ∧ '/' ∉ s ∧ '@' ∉ s

/-- A branch name: names with slashes between them. -/
def BranchName (ss : List Text) (b : Text) : Prop := b = ['/'].intercalate ss ∧ ss ≠ [] ∧ ∀ s ∈ ss, PathName s

/-- An address `https://host/owner/name`. -/
def HubAddress (u : Url) : Prop :=
  WebUrl u ∧ u.scheme = Http.httpsScheme ∧ u.port = 443 ∧ u.query = [] ∧ u.fragment = [] ∧ PathName u.host ∧
    ∃ a b, u.path = '/' :: (a ++ '/' :: b) ∧ PathName a ∧ PathName b

/-- A requirement for a branch, or for none, of a project on a hosting site. -/
def HubReq (r : GitReq) : Prop :=
  HubAddress r.u ∧ PathName r.dep ∧ ∀ b ∈ r.branch, ∃ ss, BranchName ss b

end Spec

namespace Git
open Spec
open Http (Url)
open Index (lstripSlash)

/-! ### worlds -/

theorem get_filter {K V : Type} [DecidableEq K] (d : Dict K V) (f : K → Bool) (k : K) :
    Dict.get (d.filter (fun x => f x.1)) k = if f k then Dict.get d k else none := by
  induction d with
  | nil => simp [Dict.get]
  | cons x d ih =>
    obtain ⟨a, v⟩ := x
    by_cases ha : f a = true
    · by_cases hk : a = k
      · subst hk; simp [List.filter_cons, ha, Dict.get]
      · simp [List.filter_cons, ha, Dict.get, hk, ih]
    · by_cases hk : a = k
      · subst hk; simp [List.filter_cons, ha, ih]
      · simp [List.filter_cons, ha, Dict.get, hk, ih]

/-- Every clone lies in a directory and has no `.git/heads`. -/
def Sound (w : World) : Prop := ∀ p t, Dict.get w.trees p = some t → t.heads = [] ∧ w.has p = true

theorem has_iff (w : World) (p : Path) : w.has p = true ↔ ∃ d ∈ w.dirs, p <+: d := by
  simp [World.has, List.any_eq_true, List.isPrefixOf_iff_prefix]

theorem detached (t : Tree) (h : t.heads = []) : isDetached t = true := by simp [isDetached, h]

theorem sound_place (w : World) (p : Path) (url : Text) (c : Commit) (h : Sound w) : Sound (w.place p url c) := by
  intro q t hq
  simp only [World.place, Dict.get_put] at hq
  split at hq
  · rename_i e; subst e
    simp only [Option.some.injEq] at hq; subst hq
    exact ⟨rfl, (has_iff _ _).2 ⟨p, by simp [World.place], List.prefix_rfl⟩⟩
  · obtain ⟨h1, h2⟩ := h q t hq
    obtain ⟨d, hd, hp⟩ := (has_iff _ _).1 h2
    exact ⟨h1, (has_iff _ _).2 ⟨d, by simp [World.place, hd], hp⟩⟩

theorem prefix_dropLast {p k : Path} (h : k <+: p) (hne : k ≠ p) : k <+: p.dropLast := by
  obtain ⟨s, rfl⟩ := h
  have hs : s ≠ [] := fun e => hne (by simp [e])
  rw [List.dropLast_append_of_ne_nil hs]
  exact List.prefix_append _ _

theorem sound_rmtree (w : World) (p : Path) (h : Sound w) : Sound (w.rmtree p) := by
  intro q t hq
  simp only [World.rmtree] at hq
  rw [get_filter w.trees (fun k => !(p.isPrefixOf k)) q] at hq
  split at hq
  · rename_i hk
    obtain ⟨h1, h2⟩ := h q t hq
    have hnp : ¬ p <+: q := by
      intro hh; rw [List.isPrefixOf_iff_prefix.2 hh] at hk; simp at hk
    refine ⟨h1, ?_⟩
    obtain ⟨d, hd, hp⟩ := (has_iff _ _).1 h2
    by_cases hpd : p <+: d
    · refine (has_iff _ _).2 ⟨p.dropLast, by simp [World.rmtree], ?_⟩
      have hqp : q <+: p := by
        rcases List.prefix_or_prefix_of_prefix hp hpd with hh | hh
        · exact hh
        · exact absurd hh hnp
      exact prefix_dropLast hqp (fun e => hnp (e ▸ List.prefix_rfl))
    · refine (has_iff _ _).2 ⟨d, ?_, hp⟩
      simp only [World.rmtree, List.mem_cons, List.mem_filter]
      right
      refine ⟨hd, ?_⟩
      have : p.isPrefixOf d = false := by
        rw [Bool.eq_false_iff]; exact fun e => hpd (List.isPrefixOf_iff_prefix.1 e)
      simp [this]
  · simp at hq

theorem sound_fetch (rem : Remote) (w : World) (u : Url) (branch : Option Text) (p : Path) (h : Sound w) :
    Sound (fetch rem w u branch p).2 := by
  unfold fetch
  split
  · unfold update
    split
    · exact h
    · rename_i t ht
      rw [if_pos (detached t (h p t ht).1)]
      exact h
  · unfold clone
    split
    · exact sound_rmtree w p h
    · unfold checkout
      split
      · exact sound_place _ _ _ _ h
      · split
        · exact sound_rmtree _ _ (sound_place _ _ _ _ h)
        · exact sound_place _ _ _ _ (sound_place _ _ _ _ h)

theorem sound_match (rem : Remote) (ws : Path) (w : World) (dep url : Text) (h : Sound w) :
    Sound (gitMatch rem ws w dep url).2 := by
  unfold gitMatch
  split
  · exact h
  · rename_i u branch _
    have := sound_fetch rem w u branch (targetDir ws dep u branch) h
    split <;> rename_i e <;> rw [e] at this <;> exact this

theorem sound_serve (ws : Path) (rs : List (Remote × Text × Text)) : ∀ w, Sound w → Sound (serve ws w rs).2 := by
  induction rs with
  | nil => intro w h; exact h
  | cons r rs ih =>
    intro w h
    obtain ⟨rem, dep, url⟩ := r
    exact ih _ (sound_match rem ws w dep url h)

/-- The workspace before anything was asked. -/
def fresh : World := ⟨[], []⟩

theorem sound_fresh : Sound fresh := by intro p t h; simp [fresh, Dict.get] at h

/-- C73 fails: what was cloned once is never updated. Whatever has been asked before, a request that was answered
gets the same answer again, whatever the remotes have become. -/
theorem git_never_updated_violated (ws : Path) (before : List (Remote × Text × Text)) (now later : Remote)
    (dep url : Text) (t : Tree) (w : World)
    (h : gitMatch now ws (serve ws fresh before).2 dep url = (.ok t, w)) :
    gitMatch later ws w dep url = (.ok t, w) := by
  have hs : Sound w := by
    have := sound_match now ws _ dep url (sound_serve ws before fresh sound_fresh)
    rw [h] at this; exact this
  unfold gitMatch at h ⊢
  split at h
  · simp at h
  · rename_i u branch hu
    split at h
    · simp at h
    · rename_i w' hf
      simp only [Prod.mk.injEq] at h
      obtain ⟨hp, rfl⟩ := h
      have hp0 := hp
      unfold package at hp
      split at hp
      · simp at hp
      · rename_i t' ht'
        obtain ⟨h1, h2⟩ := hs _ t' ht'
        have hf2 : fetch later w' u branch (targetDir ws dep u branch) = (.ok (), w') := by
          simp only [fetch, h2, if_true, update, ht', detached t' h1]
        rw [hf2]
        simp only [hp0]

/-- Asked again after the remote has moved on from commit 1 to commit 7. -/
example : (serve [t!"ws"] fresh [
    (⟨fun _ => some ⟨1, [], t!"ref: refs/heads/main\n", none⟩, fun _ _ => none, fun _ => none⟩, t!"demo", t!"https://h/a/b"),
    (⟨fun _ => some ⟨7, [], t!"ref: refs/heads/main\n", none⟩, fun _ _ => none, fun _ => none⟩, t!"demo", t!"https://h/a/b")]).1.map
    (fun a => a.toOption.map (fun t => t.commit.id)) = [some 1, some 1] := rfl

/-! ### the first request -/

theorem given_nonempty (branch : Option Text) (h : ∀ b ∈ branch, b ≠ []) : given branch = branch := by
  cases branch with
  | none => rfl
  | some b => cases b with
    | nil => exact absurd rfl (h [] rfl)
    | cons c b => rfl

theorem split_text (r : GitReq) (hw : WebUrl r.u) (h1 : '@' ∉ r.u.str) (h2 : ∀ b ∈ r.branch, '@' ∉ b) :
    splitUrl r.text = .ok (r.u, r.branch) := by
  obtain ⟨rem, dep, u, branch⟩ := r
  cases branch with
  | none => simp only [splitUrl, GitReq.text, Http.splitOn_single '@' _ h1, url_round_trip u hw]
  | some b =>
    simp only [splitUrl, GitReq.text, Http.splitOn_two '@' _ b h1 (h2 b rfl), url_round_trip u hw]

/-- C73: a request for something that is not there yet gives what the remote has now for this branch. -/
theorem git_first_request (ws : Path) (w : World) (r : GitReq) (c0 c : Commit) (hw : WebUrl r.u) (h1 : '@' ∉ r.u.str)
    (h2 : ∀ b ∈ r.branch, b ≠ [] ∧ '@' ∉ b) (hn : w.has (targetDir ws r.dep r.u r.branch) = false)
    (hc0 : r.rem.clone r.u.str = some c0) (hc : RemoteHas r.rem r.u.str r.branch c) (hg : c.group = none) :
    ∃ w', gitMatch r.rem ws w r.dep r.text = (.ok ⟨r.u.str, c, []⟩, w') := by
  have hgiv := given_nonempty r.branch (fun b hb => (h2 b hb).1)
  simp only [gitMatch, split_text r hw h1 (fun b hb => (h2 b hb).2), fetch, hn, Bool.false_eq_true, if_false, clone, hc0,
    checkout, hgiv]
  cases hb : r.branch with
  | none =>
    rw [hb] at hc
    simp only [RemoteHas, hc0, Option.some.injEq] at hc
    subst hc
    exact ⟨_, by simp [package, World.place, Dict.get_put, hg]; rfl⟩
  | some b =>
    rw [hb] at hc
    simp only [RemoteHas] at hc
    simp only [hc]
    exact ⟨_, by simp [package, World.place, Dict.get_put, hg]; rfl⟩

/-! ### histories -/

/-- Every clone was made for one of the requests. -/
def Made (ws : Path) (past : List GitReq) (w : World) : Prop :=
  ∀ p t, Dict.get w.trees p = some t → t.heads = [] ∧ ∃ s ∈ past, targetDir ws s.dep s.u s.branch = p ∧
    t.url = s.u.str ∧ RemoteHas s.rem s.u.str s.branch t.commit

theorem made_mono {ws : Path} {a b : List GitReq} {w : World} (h : Made ws a w) (hs : ∀ x ∈ a, x ∈ b) : Made ws b w := by
  intro p t ht
  obtain ⟨h1, s, h2, h3⟩ := h p t ht
  exact ⟨h1, s, hs s h2, h3⟩

theorem made_rmtree {ws : Path} {a : List GitReq} {w : World} (p : Path) (h : Made ws a w) : Made ws a (w.rmtree p) := by
  intro q t hq
  simp only [World.rmtree] at hq
  rw [get_filter w.trees (fun k => !(p.isPrefixOf k)) q] at hq
  split at hq
  · exact h q t hq
  · simp at hq

theorem made_place {ws : Path} {a : List GitReq} {w : World} (r : GitReq) (c : Commit) (h : Made ws a w) (hr : r ∈ a)
    (hc : RemoteHas r.rem r.u.str r.branch c) : Made ws a (w.place (targetDir ws r.dep r.u r.branch) r.u.str c) := by
  intro q t hq
  simp only [World.place, Dict.get_put] at hq
  split at hq
  · rename_i e
    simp only [Option.some.injEq] at hq; subst hq
    exact ⟨rfl, r, hr, e, rfl, hc⟩
  · exact h q t hq

theorem place_place (w : World) (p : Path) (url : Text) (c d : Commit) (q : Path) :
    Dict.get ((w.place p url c).place p url d).trees q = Dict.get (w.place p url d).trees q := by
  simp only [World.place, Dict.get_put]
  split <;> rfl

theorem rmtree_place (w : World) (p : Path) (url : Text) (c : Commit) (q : Path) :
    Dict.get ((w.place p url c).rmtree p).trees q = Dict.get (w.rmtree p).trees q := by
  simp only [World.place, World.rmtree]
  rw [get_filter _ (fun k => !(p.isPrefixOf k)) q, get_filter _ (fun k => !(p.isPrefixOf k)) q, Dict.get_put]
  by_cases e : p = q
  · subst e
    have : p.isPrefixOf p = true := List.isPrefixOf_iff_prefix.2 List.prefix_rfl
    simp [this]
  · rw [if_neg e]

theorem made_congr {ws : Path} {a : List GitReq} {w v : World} (h : Made ws a w)
    (e : ∀ q, Dict.get v.trees q = Dict.get w.trees q) : Made ws a v := fun q t hq => h q t (e q ▸ hq)

theorem made_match {ws : Path} {past : List GitReq} {w : World} (r : GitReq) (hm : Made ws past w) (hw : WebUrl r.u)
    (h1 : '@' ∉ r.u.str) (h2 : ∀ b ∈ r.branch, b ≠ [] ∧ '@' ∉ b) :
    Made ws (past ++ [r]) (gitMatch r.rem ws w r.dep r.text).2 ∧
      ∀ t, (gitMatch r.rem ws w r.dep r.text).1 = .ok t →
        Dict.get (gitMatch r.rem ws w r.dep r.text).2.trees (targetDir ws r.dep r.u r.branch) = some t := by
  have hm' : Made ws (past ++ [r]) w := made_mono hm (fun x hx => List.mem_append_left _ hx)
  have hr : r ∈ past ++ [r] := by simp
  have hgiv := given_nonempty r.branch (fun b hb => (h2 b hb).1)
  have hpk : ∀ (v : World) (t : Tree) p, package v r.dep p = .ok t → Dict.get v.trees p = some t := by
    intro v t p hp
    unfold package at hp
    split at hp
    · simp at hp
    · rename_i t' ht'
      split at hp
      · split at hp <;> simp at hp
      · simp only [Except.ok.injEq] at hp; subst hp; exact ht'
  simp only [gitMatch, split_text r hw h1 (fun b hb => (h2 b hb).2)]
  have hf : Made ws (past ++ [r]) (fetch r.rem w r.u r.branch (targetDir ws r.dep r.u r.branch)).2 := by
    unfold fetch
    split
    · unfold update
      split
      · exact hm'
      · rename_i t ht
        rw [if_pos (detached t (hm _ t ht).1)]
        exact hm'
    · unfold clone
      split
      · exact made_rmtree _ hm'
      · rename_i c0 hc0
        unfold checkout
        rw [hgiv]
        split
        · rename_i hb
          exact made_place r c0 hm' hr (by simp only [hb, RemoteHas]; exact hc0)
        · rename_i b hb
          split
          · exact made_congr (made_rmtree _ hm') (rmtree_place w _ _ _)
          · rename_i c hc
            exact made_congr (made_place r c hm' hr (by simp only [hb, RemoteHas]; exact hc)) (place_place w _ _ _ _)
  split
  · rename_i e
    rw [e] at hf
    exact ⟨hf, by simp⟩
  · rename_i e
    rw [e] at hf
    exact ⟨hf, fun t ht => hpk _ t _ ht⟩

theorem serve_append (ws : Path) (a : List (Remote × Text × Text)) : ∀ (w : World) (b : List (Remote × Text × Text)),
    (serve ws w (a ++ b)).1 = (serve ws w a).1 ++ (serve ws (serve ws w a).2 b).1 := by
  induction a with
  | nil => intro w b; rfl
  | cons r a ih =>
    intro w b
    obtain ⟨rem, dep, url⟩ := r
    simp only [List.cons_append, serve, ih]

theorem serve_length (ws : Path) (a : List (Remote × Text × Text)) : ∀ (w : World), (serve ws w a).1.length = a.length := by
  induction a with
  | nil => intro w; rfl
  | cons r a ih =>
    intro w
    obtain ⟨rem, dep, url⟩ := r
    simp [serve, ih]

/-- A request as it is given to `serve`. -/
def asked (r : GitReq) : Remote × Text × Text := (r.rem, r.dep, r.text)

theorem made_serve (ws : Path) (rs : List GitReq) : ∀ (past : List GitReq) (w : World), Made ws past w →
    (∀ r ∈ rs, WebUrl r.u ∧ '@' ∉ r.u.str ∧ ∀ b ∈ r.branch, b ≠ [] ∧ '@' ∉ b) →
    Made ws (past ++ rs) (serve ws w (rs.map asked)).2 := by
  induction rs with
  | nil => intro past w h _; simpa [serve] using h
  | cons r rs ih =>
    intro past w h hv
    obtain ⟨a, b, c⟩ := hv r (List.mem_cons_self ..)
    have := (made_match r h a b c).1
    have := ih (past ++ [r]) _ this (fun x hx => hv x (List.mem_cons_of_mem _ hx))
    simpa [serve, asked, List.append_assoc] using this

theorem history_answer (ws : Path) (pre post : List GitReq) (r : GitReq) (t : Tree)
    (hv : ∀ x ∈ pre ++ [r], WebUrl x.u ∧ '@' ∉ x.u.str ∧ ∀ b ∈ x.branch, b ≠ [] ∧ '@' ∉ b)
    (hinj : ∀ x ∈ pre ++ [r], targetDir ws x.dep x.u x.branch = targetDir ws r.dep r.u r.branch →
      x.u.str = r.u.str ∧ x.branch = r.branch)
    (h : (serve ws fresh ((pre ++ r :: post).map asked)).1[pre.length]? = some (.ok t)) :
    t.url = r.u.str ∧ ∃ x ∈ pre ++ [r], RemoteHas x.rem r.u.str r.branch t.commit := by
  have hm0 : Made ws [] fresh := by intro p t h; simp [fresh, Dict.get] at h
  have hm := made_serve ws pre [] fresh hm0 (fun x hx => hv x (List.mem_append_left _ hx))
  simp only [List.nil_append] at hm
  rw [List.map_append, serve_append, List.getElem?_append_right (by rw [serve_length]; simp), serve_length] at h
  simp only [List.length_map, Nat.sub_self, List.map_cons, serve, asked, List.getElem?_cons_zero, Option.some.injEq] at h
  obtain ⟨a, b, c⟩ := hv r (by simp)
  obtain ⟨h1, h2⟩ := made_match r hm a b c
  obtain ⟨_, x, hx, hx1, hx2, hx3⟩ := h1 _ t (h2 t h)
  obtain ⟨e1, e2⟩ := hinj x hx hx1
  rw [e1] at hx2 hx3
  rw [e2] at hx3
  exact ⟨hx2, x, hx, hx3⟩

/-! ### places -/

theorem name_segs (s : Text) (h : PathName s) : segs s = [s] := by
  obtain ⟨h1, h2, h3, h4, h5⟩ := h
  have : isSeg s = true := by simp [isSeg, h1, h2]
  simp [segs, Http.splitOn_single '/' s h4, this]

theorem join_name (p : Path) (s : Text) (h : PathName s) : join p s = p ++ [s] := by
  have hs := name_segs s h
  unfold join
  split
  · exact absurd (List.mem_cons_self ..) h.2.2.2.1
  · rw [hs]

theorem split_names (ss : List Text) (hne : ss ≠ []) (h : ∀ s ∈ ss, PathName s) :
    splitOn '/' (['/'].intercalate ss) = ss := by
  induction ss with
  | nil => exact absurd rfl hne
  | cons s ss ih =>
    cases ss with
    | nil => simp only [List.intercalate, List.intersperse, List.flatten_cons, List.flatten_nil, List.append_nil]
             exact Http.splitOn_single '/' s (h s (by simp)).2.2.2.1
    | cons x ss =>
      have e : ['/'].intercalate (s :: x :: ss) = s ++ '/' :: ['/'].intercalate (x :: ss) := by
        simp [List.intercalate, List.intersperse]
      rw [e, Tags.splitOn_step '/' s _ (h s (by simp)).2.2.2.1, ih (by simp) (fun y hy => h y (List.mem_cons_of_mem _ hy))]

theorem branch_segs (ss : List Text) (b : Text) (h : BranchName ss b) : segs b = ss := by
  obtain ⟨rfl, hne, hs⟩ := h
  rw [segs, split_names ss hne hs]
  apply List.filter_eq_self.2
  intro s hm
  obtain ⟨h1, h2, _⟩ := hs s hm
  simp [isSeg, h1, h2]

theorem branch_start (ss : List Text) (b : Text) (h : BranchName ss b) : b ≠ [] ∧ '@' ∉ b ∧ ∀ r, b ≠ '/' :: r := by
  obtain ⟨rfl, hne, hs⟩ := h
  refine ⟨?_, ?_, ?_⟩
  · cases ss with
    | nil => exact absurd rfl hne
    | cons s ss =>
      have := (hs s (by simp)).1
      cases ss with
      | nil => simpa [List.intercalate, List.intersperse] using this
      | cons x ss => simp [List.intercalate, List.intersperse]
  · intro hm
    clear hne
    induction ss with
    | nil => simp [List.intercalate] at hm
    | cons s ss ih =>
      cases ss with
      | nil =>
        simp only [List.intercalate, List.intersperse, List.flatten_cons, List.flatten_nil, List.append_nil] at hm
        exact (hs s (by simp)).2.2.2.2 hm
      | cons x ss =>
        have e : ['/'].intercalate (s :: x :: ss) = s ++ '/' :: ['/'].intercalate (x :: ss) := by
          simp [List.intercalate, List.intersperse]
        rw [e] at hm
        rcases List.mem_append.1 hm with hm | hm
        · exact (hs s (by simp)).2.2.2.2 hm
        · rcases List.mem_cons.1 hm with hm | hm
          · exact absurd hm (by decide)
          · exact ih (fun y hy => hs y (List.mem_cons_of_mem _ hy)) hm
  · intro r hr
    cases ss with
    | nil => exact hne rfl
    | cons s ss =>
      obtain ⟨h1, _, _, h4, _⟩ := hs s (by simp)
      cases s with
      | nil => exact h1 rfl
      | cons c s =>
        have : c = '/' := by
          cases ss with
          | nil => simp [List.intercalate, List.intersperse] at hr; exact hr.1
          | cons x ss => simp [List.intercalate, List.intersperse] at hr; exact hr.1
        subst this
        exact h4 (List.mem_cons_self ..)

theorem resolve_names (p q : Path) (h : ∀ s ∈ q, s ≠ ['.', '.']) : resolve (p ++ q) = resolve p ++ q := by
  unfold resolve
  rw [List.foldl_append]
  generalize List.foldl _ [] p = acc
  induction q generalizing acc with
  | nil => simp
  | cons s q ih =>
    simp only [List.foldl_cons]
    rw [if_neg (h s (by simp)), ih (fun x hx => h x (List.mem_cons_of_mem _ hx))]
    simp

theorem hub_base (ws : Path) (dep : Text) (u : Url) (a b : Text) (hd : PathName dep) (hh : PathName u.host)
    (hp : u.path = '/' :: (a ++ '/' :: b)) (ha : PathName a) (hb : PathName b) :
    join (join (join ws dep) u.host) (lstripSlash u.path) = ws ++ [dep, u.host, a, b] := by
  rw [join_name ws dep hd, join_name _ u.host hh, hp]
  have hl : lstripSlash ('/' :: (a ++ '/' :: b)) = a ++ '/' :: b := by
    obtain ⟨h1, _, _, h4, _⟩ := ha
    cases a with
    | nil => exact absurd rfl h1
    | cons c a =>
      have : c ≠ '/' := fun e => h4 (e ▸ List.mem_cons_self ..)
      simp [lstripSlash, List.dropWhile_cons, this]
  rw [hl]
  have hs : segs (a ++ '/' :: b) = [a, b] := by
    have := branch_segs [a, b] (['/'].intercalate [a, b]) ⟨rfl, by simp, by
      intro s hs; simp only [List.mem_cons, List.not_mem_nil, or_false] at hs; rcases hs with rfl | rfl <;> assumption⟩
    simpa [List.intercalate, List.intersperse] using this
  have hstart : ∀ r, a ++ '/' :: b ≠ '/' :: r := by
    intro r hr
    obtain ⟨h1, _, _, h4, _⟩ := ha
    cases a with
    | nil => exact h1 rfl
    | cons c a =>
      simp only [List.cons_append, List.cons.injEq] at hr
      exact h4 (hr.1 ▸ List.mem_cons_self ..)
  unfold join
  split
  · rename_i r hr; exact absurd hr (hstart r)
  · rw [hs]; simp

/-- The place of the clone for a requirement on a hosting site. -/
theorem hub_target (ws : Path) (r : GitReq) (h : HubReq r) : ∃ a b ss, PathName a ∧ PathName b ∧
    r.u.path = '/' :: (a ++ '/' :: b) ∧ (∀ s ∈ ss, PathName s) ∧
    targetDir ws r.dep r.u r.branch = resolve ws ++ ([r.dep, r.u.host, a, b] ++ ss) ∧
    ((r.branch = none ∧ ss = []) ∨ (ss ≠ [] ∧ r.branch = some (['/'].intercalate ss))) := by
  obtain ⟨⟨_, _, _, _, _, hh, a, b, hp, ha, hb⟩, hd, hbr⟩ := h
  have base := hub_base ws r.dep r.u a b hd hh hp ha hb
  have hnn : ∀ s ∈ [r.dep, r.u.host, a, b], s ≠ ['.', '.'] := by
    intro s hs
    simp only [List.mem_cons, List.not_mem_nil, or_false] at hs
    rcases hs with rfl | rfl | rfl | rfl
    · exact hd.2.2.1
    · exact hh.2.2.1
    · exact ha.2.2.1
    · exact hb.2.2.1
  cases hbn : r.branch with
  | none =>
    refine ⟨a, b, [], ha, hb, hp, by simp, ?_, Or.inl ⟨rfl, rfl⟩⟩
    simp only [targetDir, given, base, List.append_nil]
    exact resolve_names ws _ hnn
  | some br =>
    obtain ⟨ss, hss⟩ := hbr br (by rw [hbn]; rfl)
    obtain ⟨g1, g2, g3⟩ := branch_start ss br hss
    have hseg := branch_segs ss br hss
    obtain ⟨e, hne, hs⟩ := hss
    refine ⟨a, b, ss, ha, hb, hp, hs, ?_, Or.inr ⟨hne, by rw [e]⟩⟩
    have hgv : given (some br) = some br := given_nonempty _ (fun x hx => by
      simp only [Option.mem_def, Option.some.injEq] at hx; subst hx; exact g1)
    simp only [targetDir, hgv, base]
    have hj : join (ws ++ [r.dep, r.u.host, a, b]) br = ws ++ ([r.dep, r.u.host, a, b] ++ ss) := by
      unfold join
      split
      · rename_i q; exact absurd rfl (g3 q)
      · rw [hseg, List.append_assoc]
    rw [hj]
    apply resolve_names
    intro s hm
    rcases List.mem_append.1 hm with hm | hm
    · exact hnn s hm
    · exact (hs s hm).2.2.1

theorem hub_inj (ws : Path) (x r : GitReq) (hx : HubReq x) (hr : HubReq r)
    (h : targetDir ws x.dep x.u x.branch = targetDir ws r.dep r.u r.branch) :
    x.dep = r.dep ∧ x.u = r.u ∧ x.branch = r.branch := by
  obtain ⟨a, b, ss, _, _, hp, _, ht, hb⟩ := hub_target ws x hx
  obtain ⟨a', b', ss', _, _, hp', _, ht', hb'⟩ := hub_target ws r hr
  rw [ht, ht'] at h
  have h := List.append_cancel_left h
  simp only [List.cons_append, List.nil_append, List.cons.injEq] at h
  obtain ⟨h1, h2, h3, h4, h5⟩ := h
  subst h3 h4 h5
  refine ⟨h1, ?_, ?_⟩
  · obtain ⟨⟨_, q1, q2, q3, q4, _⟩, _⟩ := hx
    obtain ⟨⟨_, r1, r2, r3, r4, _⟩, _⟩ := hr
    cases hxu : x.u; cases hru : r.u
    simp only [hxu, hru] at *
    simp only [Url.mk.injEq]
    exact ⟨q1.trans r1.symm, h2, q2.trans r2.symm, hp.trans hp'.symm, q3.trans r3.symm, q4.trans r4.symm⟩
  · rcases hb with ⟨e1, e2⟩ | ⟨e1, e2⟩ <;> rcases hb' with ⟨e3, e4⟩ | ⟨e3, e4⟩
    · rw [e1, e3]
    · exact absurd e2 e3
    · exact absurd e4 e1
    · rw [e2, e4]

theorem hub_valid (r : GitReq) (h : HubReq r) : WebUrl r.u ∧ '@' ∉ r.u.str ∧ ∀ b ∈ r.branch, b ≠ [] ∧ '@' ∉ b := by
  obtain ⟨⟨hw, hs, hpt, hq, hf, hh, a, b, hp, ha, hb⟩, hd, hbr⟩ := h
  refine ⟨hw, ?_, ?_⟩
  · intro hm
    simp only [Url.str, Url.portText, Url.queryText, Url.fragmentText, hs, hpt, hq, hf, hp, true_and, true_or, if_true,
      List.isEmpty_nil, List.append_nil] at hm
    simp only [Http.httpsScheme, List.cons_append, List.nil_append, List.mem_cons, List.mem_append] at hm
    have hne : ∀ c : Char, c ≠ '@' → ¬ '@' = c := fun c hc e => hc e.symm
    rcases hm with hm | hm | hm | hm | hm | hm | hm | hm | hm | hm | hm | hm | hm <;>
      first
      | exact absurd hm (by decide)
      | exact hh.2.2.2.2 hm
      | exact ha.2.2.2.2 hm
      | exact hb.2.2.2.2 hm
  · intro b hb
    obtain ⟨ss, hss⟩ := hbr b hb
    exact ⟨(branch_start ss b hss).1, (branch_start ss b hss).2.1⟩

/-- C73: for requirements on hosting sites, whatever is asked in whatever order and whatever fails: an answer is a
clone of the repository that was asked for, with what its remote had for the branch that was asked for, at the time of
this request or of an earlier one. -/
theorem git_history_partial (ws : Path) (pre post : List GitReq) (r : GitReq) (t : Tree)
    (hv : ∀ x ∈ pre ++ [r], HubReq x)
    (h : (serve ws fresh ((pre ++ r :: post).map asked)).1[pre.length]? = some (.ok t)) :
    t.url = r.u.str ∧ ∃ x ∈ pre ++ [r], RemoteHas x.rem r.u.str r.branch t.commit :=
  history_answer ws pre post r t (fun x hx => hub_valid x (hv x hx))
    (fun x hx e => by
      obtain ⟨_, h2, h3⟩ := hub_inj ws x r (hv x hx) (hv r (by simp)) e
      exact ⟨by rw [h2], h3⟩) h

theorem below_of_hub (ws : Path) (r : GitReq) (h : HubReq r) : resolve ws ++ [r.dep] <+: targetDir ws r.dep r.u r.branch := by
  obtain ⟨a, b, ss, _, _, _, _, ht, _⟩ := hub_target ws r h
  rw [ht]
  exact ⟨[r.u.host, a, b] ++ ss, by simp⟩

/-- C73: their clones lie in the directory of the package in the workspace. -/
theorem git_inside_partial (ws : Path) (r : GitReq) (h : HubReq r) :
    resolve ws ++ [r.dep] <+: targetDir ws r.dep r.u r.branch := below_of_hub ws r h

/-- C73 fails: with `..` in the address or with a slash before the branch the clone is made elsewhere. -/
theorem git_outside_violated (dep b : Text) (ws : Path) (u : Url) :
    targetDir ws dep u (some ('/' :: b)) = resolve (segs ('/' :: b)) := rfl

example : (splitUrl t!"https://h/a/b@/etc/x").toOption.map (fun x => targetDir [t!"ws"] t!"demo" x.1 x.2) =
    some [t!"etc", t!"x"] := rfl
example : (splitUrl t!"https://h/../../../etc/x").toOption.map (fun x => targetDir [t!"ws"] t!"demo" x.1 x.2) =
    some [t!"etc", t!"x"] := rfl

/-! ### what goes wrong -/

/-- A remote with a commit for each address and branch. -/
def demoRemote (n : Nat) : Remote :=
  ⟨fun _ => some ⟨n, [], t!"ref: refs/heads/main\n", none⟩, fun _ b => some ⟨n + b.length, [], b, none⟩, fun _ => none⟩

def demoUrl : Url := ⟨Http.httpsScheme, t!"h", 443, t!"/a/b", [], []⟩

theorem demo_hub (n : Nat) (branch : Option Text) (hb : branch = none ∨ branch = some t!"dev") :
    HubReq ⟨demoRemote n, t!"demo", demoUrl, branch⟩ := by
  refine ⟨⟨⟨Or.inr rfl, by simp [demoUrl], by simp [demoUrl], by simp [demoUrl], by simp [demoUrl]⟩, rfl, rfl, rfl, rfl,
    ⟨by simp [demoUrl], by simp [demoUrl], by simp [demoUrl], by simp [demoUrl], by simp [demoUrl]⟩, t!"a", t!"b", rfl,
    ⟨by simp [demoUrl], by simp [demoUrl], by simp [demoUrl], by simp [demoUrl], by simp [demoUrl]⟩,
    ⟨by simp [demoUrl], by simp [demoUrl], by simp [demoUrl], by simp [demoUrl], by simp [demoUrl]⟩⟩,
    ⟨by simp [demoUrl], by simp [demoUrl], by simp [demoUrl], by simp [demoUrl], by simp [demoUrl]⟩, ?_⟩
  intro b hbm
  rcases hb with rfl | rfl
  · simp at hbm
  · simp only [Option.mem_def, Option.some.injEq] at hbm
    subst hbm
    refine ⟨[t!"dev"], rfl, by simp, ?_⟩
    intro s hs
    simp only [List.mem_singleton] at hs
    subst hs
    exact ⟨by simp [demoUrl], by simp [demoUrl], by simp [demoUrl], by simp [demoUrl], by simp [demoUrl]⟩

/-- Two requests: both are answered, with the right commits. -/
example : ((serve [t!"ws"] fresh ([⟨demoRemote 1, t!"demo", demoUrl, none⟩,
    ⟨demoRemote 7, t!"demo", demoUrl, some t!"dev"⟩].map asked)).1.map (fun a => a.toOption.map (fun t => t.commit.id))) =
    [some 1, some 10] := rfl

/-- C73 fails: after a branch has been cloned, or a clone of it has failed, the project without a branch cannot be had
any more, whatever the remotes are. -/
theorem git_default_after_branch_violated (ws : Path) (r : GitReq) (b : Text) (later : Remote) (h : HubReq r)
    (hb : r.branch = some b) :
    (gitMatch later ws (gitMatch r.rem ws fresh r.dep r.text).2 r.dep r.u.str).1 = .error .notFound := by
  have h0 : HubReq { r with branch := none } := ⟨h.1, h.2.1, by simp⟩
  obtain ⟨hw, h1, h2⟩ := hub_valid r h
  have hsp := split_text r hw h1 (fun x hx => (h2 x hx).2)
  have hsp0 : splitUrl r.u.str = .ok (r.u, none) := split_text { r with branch := none } hw h1 (by simp)
  obtain ⟨a, c, ss, ha, hc, hp, _, ht, hbr⟩ := hub_target ws r h
  obtain ⟨a', c', ss', ha', hc', hp', _, ht', hbr'⟩ := hub_target ws _ h0
  have hss' : ss' = [] := by
    rcases hbr' with ⟨_, e⟩ | ⟨_, e⟩
    · exact e
    · simp at e
  subst hss'
  have hss : ss ≠ [] := by
    rcases hbr with ⟨e, _⟩ | ⟨e, _⟩
    · rw [hb] at e; simp at e
    · exact e
  have hac : a' = a ∧ c' = c := by
    simp only [] at hp'
    rw [hp] at hp'
    simp only [List.cons.injEq, true_and] at hp'
    have s1 := Http.splitOn_two '/' a c ha.2.2.2.1 hc.2.2.2.1
    have s2 := Http.splitOn_two '/' a' c' ha'.2.2.2.1 hc'.2.2.2.1
    rw [hp', s2] at s1
    simpa using s1
  obtain ⟨rfl, rfl⟩ := hac
  simp only [List.append_nil] at ht'
  have hq : targetDir ws r.dep r.u r.branch = targetDir ws r.dep r.u none ++ ss := by rw [ht, ht']; simp
  generalize hqd : targetDir ws r.dep r.u none = q at hq
  generalize hpd : targetDir ws r.dep r.u r.branch = p at hq
  have hne : p ≠ q := by rw [hq]; simpa using hss
  have hpre : q <+: p := ⟨ss, hq.symm⟩
  have hpre' : q <+: p.dropLast := prefix_dropLast hpre (fun e => hne e.symm)
  have hw1 : ∀ w1, w1 = (fetch r.rem fresh r.u r.branch p).2 → Dict.get w1.trees q = none ∧ w1.has q = true := by
    intro w1 e
    have hf : fresh.has p = false := rfl
    simp only [fetch, hf, Bool.false_eq_true, if_false, clone] at e
    split at e
    · subst e
      exact ⟨rfl, (has_iff _ _).2 ⟨p.dropLast, by simp [World.rmtree], hpre'⟩⟩
    · unfold checkout at e
      split at e
      · subst e
        refine ⟨?_, (has_iff _ _).2 ⟨p, by simp [World.place], hpre⟩⟩
        simp only [World.place, Dict.get_put, if_neg hne]; rfl
      · split at e
        · subst e
          exact ⟨by rw [rmtree_place]; rfl, (has_iff _ _).2 ⟨p.dropLast, by simp [World.rmtree], hpre'⟩⟩
        · subst e
          refine ⟨?_, (has_iff _ _).2 ⟨p, by simp [World.place], hpre⟩⟩
          rw [place_place]
          simp only [World.place, Dict.get_put, if_neg hne]; rfl
  have hw2 : (gitMatch r.rem ws fresh r.dep r.text).2 = (fetch r.rem fresh r.u r.branch p).2 := by
    simp only [gitMatch, hsp, hpd]
    split <;> rename_i e <;> rw [e]
  obtain ⟨g1, g2⟩ := hw1 _ rfl
  rw [hw2]
  generalize (fetch r.rem fresh r.u r.branch p).2 = v at g1 g2 ⊢
  simp only [gitMatch, hsp0, hqd, fetch, g2, if_true, update, g1]

example : (gitMatch (demoRemote 7) [t!"ws"] (gitMatch (demoRemote 1) [t!"ws"] fresh t!"demo" t!"https://h/a/b@dev").2
    t!"demo" t!"https://h/a/b").1 = .error .notFound := rfl

/-- C73 fails: a name of a user before the host is taken for the host and the host for a branch. -/
theorem git_user_violated (scheme user rest : Text) (h1 : '@' ∉ scheme) (h2 : '@' ∉ user) (h3 : '@' ∉ rest) (u : Url)
    (b : Option Text) (h : splitUrl (scheme ++ t!"://" ++ user ++ '@' :: rest) = .ok (u, b)) :
    Url.parse (scheme ++ t!"://" ++ user) = some u ∧ b = some rest := by
  have hne : '@' ∉ scheme ++ t!"://" ++ user := by
    simp only [List.mem_append, not_or]
    exact ⟨⟨h1, by decide⟩, h2⟩
  simp only [splitUrl, Http.splitOn_two '@' _ rest hne h3] at h
  cases hp : Url.parse (scheme ++ t!"://" ++ user) with
  | none => rw [hp] at h; simp at h
  | some v =>
    rw [hp] at h
    simp only [Except.ok.injEq, Prod.mk.injEq] at h
    exact ⟨by rw [h.1], h.2.symm⟩

example : (splitUrl t!"ssh://git@h/a/b").toOption.map (fun x => (x.1.str, x.2)) =
    some (t!"ssh://git:443", some t!"h/a/b") := rfl
example : (splitUrl t!"ssh://git@h/a/b@dev").toOption = none := rfl

/-- C73 fails: an address of any other kind than http is asked at port 443. -/
theorem git_port_violated (t : Text) (u : Url) (b : Option Text) (h : splitUrl t = .ok (u, b)) (ha : '@' ∉ t)
    (hc : ':' ∉ (Http.urlsplit t).netloc) (hs : u.scheme ≠ Http.httpScheme) (hs' : u.scheme ≠ Http.httpsScheme) :
    u.str = u.scheme ++ t!"://" ++ u.host ++ t!":443" ++ u.resourcePart := by
  simp only [splitUrl, Http.splitOn_single '@' t ha] at h
  cases hp : Url.parse t with
  | none => rw [hp] at h; simp at h
  | some v =>
    rw [hp] at h
    simp only [Except.ok.injEq, Prod.mk.injEq] at h
    obtain ⟨rfl, _⟩ := h
    simp only [Url.parse, Http.splitOn_single ':' _ hc, Option.some.injEq] at hp
    have hport : v.port = 443 := by
      subst hp
      simp only at hs ⊢
      rw [if_neg hs]
    have : showNat 443 = t!"443" := by rfl
    simp [Url.str, Url.portText, Url.resourcePart, hs, hs', hport, this]

example : (splitUrl t!"ssh://h/a/b").toOption.map (fun x => x.1.str) = some t!"ssh://h:443/a/b" := rfl

/-- C73 fails: if the process ends between the clone and the checkout, the next request for the branch is answered
with the default branch. -/
theorem git_crash_violated (ws : Path) (r : GitReq) (c : Commit) (later : Remote) (h : HubReq r)
    (hg : c.group = none) :
    (gitMatch later ws (fresh.place (targetDir ws r.dep r.u r.branch) r.u.str c) r.dep r.text).1 =
      .ok ⟨r.u.str, c, []⟩ := by
  obtain ⟨hw, h1, h2⟩ := hub_valid r h
  have hsp := split_text r hw h1 (fun x hx => (h2 x hx).2)
  have hh : (fresh.place (targetDir ws r.dep r.u r.branch) r.u.str c).has (targetDir ws r.dep r.u r.branch) = true :=
    (has_iff _ _).2 ⟨_, by simp [World.place], List.prefix_rfl⟩
  have hget : Dict.get (fresh.place (targetDir ws r.dep r.u r.branch) r.u.str c).trees (targetDir ws r.dep r.u r.branch) =
      some ⟨r.u.str, c, []⟩ := by simp [World.place, Dict.get_put]
  simp only [gitMatch, hsp, fetch, hh, if_true, update, hget, detached, package, hg]

/-- The clone is the first thing that is done for such a request. -/
theorem git_crash_point (ws : Path) (r : GitReq) (c : Commit) (hc : r.rem.clone r.u.str = some c) :
    fetch r.rem fresh r.u r.branch (targetDir ws r.dep r.u r.branch) =
      checkout r.rem (fresh.place (targetDir ws r.dep r.u r.branch) r.u.str c) r.u.str r.branch
        (targetDir ws r.dep r.u r.branch) := by
  have hf : fresh.has (targetDir ws r.dep r.u r.branch) = false := rfl
  simp only [fetch, hf, Bool.false_eq_true, if_false, clone, hc]

/-- C73 fails: no project of a project group can be had from git. -/
theorem git_group_violated (w : World) (dep : Text) (p : Path) (t : Tree) (ps : List Text)
    (ht : Dict.get w.trees p = some t) (hg : t.commit.group = some ps) :
    ∃ e, package w dep p = .error e ∧ ((ps.filter (fun n => n == dep)).length = 1 → e = .attribute) := by
  simp only [package, ht, hg]
  split
  · exact ⟨_, rfl, fun _ => rfl⟩
  · rename_i hne; exact ⟨_, rfl, fun e => absurd e hne⟩

/-- C73 fails: two repositories share one clone if the one is named like a branch of the other. -/
theorem git_collision_violated : ∃ a b : Text, ∃ x y : Url × Option Text, splitUrl a = .ok x ∧ splitUrl b = .ok y ∧
    x.1.str ≠ y.1.str ∧ ∀ ws dep, targetDir ws dep x.1 x.2 = targetDir ws dep y.1 y.2 := by
  refine ⟨t!"https://h/a/b@c", t!"https://h/a/b/c", _, _, rfl, rfl, by decide, ?_⟩
  intro ws dep
  show resolve (join (join ws dep) t!"h" ++ [t!"a", t!"b"] ++ [t!"c"]) =
    resolve (join (join ws dep) t!"h" ++ [t!"a", t!"b", t!"c"])
  rw [List.append_assoc]; rfl

/-- C73 fails: capital letters are lost, so a branch with one is never the one asked for. -/
theorem git_case_violated (env : UrlEnv) (t url : Text) (repo : Option Text) (s : Text)
    (h : parseVersion env t = .url url repo s) : ∀ c ∈ url, isUpper c = false := by
  have hlow : ∀ (x : Text), ∀ c ∈ lower x, isUpper c = false := by
    intro x c hc
    simp only [lower, List.mem_map] at hc
    obtain ⟨d, _, rfl⟩ := hc
    exact lowerChar_not_upper d
  have hsub : ∀ (p : Char → Bool) (x : Text), ∀ c ∈ x.takeWhile p, c ∈ x := fun p x c hc => (List.takeWhile_prefix p).subset hc
  simp only [parseVersion] at h
  split at h
  · cases hp : parseUrlVersion env (lower t) with
    | none => rw [hp] at h; simp at h
    | some v =>
      rw [hp] at h
      simp only at h
      subst h
      simp only [parseUrlVersion] at hp
      split at hp
      · simp only [Option.some.injEq] at hp
        injection hp with h1 h2 h3
        subst h1
        intro c hc
        refine hlow (lower t) c ?_
        have h1 := hsub _ _ c hc
        split at h1
        · rename_i e2
          have h2 : c ∈ (lower (lower t)).dropWhile isWord := by rw [e2]; exact List.mem_cons_of_mem _ h1
          exact (List.dropWhile_suffix _).subset h2
        · exact h1
      · simp at hp
  · split at h <;> simp at h

end Git
end Pkm
