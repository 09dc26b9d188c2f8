import Verif.Props.Glob

/-! # C94: saved results shown again -/

namespace QuDiet.Tools
open QuDiet.Qasm

/-! ### Specification -/

/-- What reading the saved result at this place of the disk gives. -/
def readBack (load : Text → PyM Text) (disk : Dir) (q : List Text) : PyM Text :=
  match disk.text q with
  | some t => load t
  | none => .error .os

/-- The entries below `top` whose names end in `.mode`, with no name from `top` on that begins with a dot. -/
def Entry.Below (disk : Dir) (top : List Text) (mode : Text) (q : List Text) : Prop :=
  ∃ ns f, q = top ++ ns ++ [f] ∧ disk.get q ≠ none ∧ Shown (ns ++ [f]) ∧ '.' :: mode <:+ f

/-! ### `glob` lists nothing twice -/

theorem nodup_names {d : Dir} (hd : d.Ok) : d.names.Nodup := by
  induction d with
  | nil => simp [Dir.names]
  | file m t r ih =>
    rw [Dir.names, List.nodup_cons, mem_names]
    exact ⟨by simp [hd.2.1], ih hd.2.2⟩
  | dir m s r _ ih =>
    rw [Dir.names, List.nodup_cons, mem_names]
    exact ⟨by simp [hd.2.1], ih hd.2.2.2⟩

theorem rel_inj {ns ns' : List Text} (h : ns ≠ []) (h' : ns' ≠ []) (hn : ∀ n ∈ ns, Name n) (hn' : ∀ n ∈ ns', Name n)
    (he : ['/'].intercalate ns = ['/'].intercalate ns') : ns = ns' := by
  rw [← split_intercalate h fun n hx => (hn n hx).2.1, he, split_intercalate h' fun n hx => (hn' n hx).2.1]

theorem dir_names {d : Dir} (hd : d.Ok) {ns : List Text} (h : d.isDir ns = true) : ∀ n ∈ ns, Name n := by
  obtain ⟨e, he⟩ := isDir_iff.1 h
  exact (get_names hd he).1

theorem nodup_rlist {d : Dir} (hd : d.Ok) : d.rlist.Nodup := by
  induction d with
  | nil => simp [Dir.rlist]
  | file m t r ih => exact ih hd.2.2
  | dir m s r ihs ihr =>
    rw [Dir.rlist]
    by_cases hm : globHidden m = true
    · rw [if_pos hm]
      exact ihr hd.2.2.2
    · rw [if_neg hm]
      have join : ∀ x ∈ s.rlist, ∃ ns, ns ≠ [] ∧ s.isDir ns = true ∧ x = ['/'].intercalate ns ∧
          joinPath m x = ['/'].intercalate (m :: ns) := by
        intro x hx
        obtain ⟨ns, hne, hdir, _, rfl⟩ := (mem_rlist hd.2.2.1 x).1 hx
        exact ⟨ns, hne, hdir, rfl, joinPath_rel hd.1 (dir_names hd.2.2.1 hdir) hne⟩
      have names : ∀ ns, s.isDir ns = true → ∀ n ∈ m :: ns, Name n := by
        intro ns h n hn
        rcases List.mem_cons.1 hn with rfl | hn
        · exact hd.1
        · exact dir_names hd.2.2.1 h n hn
      have hfirst : ∀ x ∈ m :: s.rlist.map (joinPath m), ∃ ns, s.isDir ns = true ∧ x = ['/'].intercalate (m :: ns) := by
        intro x hx
        rcases List.mem_cons.1 hx with rfl | hx
        · exact ⟨[], rfl, by simp [List.intercalate]⟩
        · obtain ⟨y, hy, rfl⟩ := List.mem_map.1 hx
          obtain ⟨ns, _, h1, _, h2⟩ := join y hy
          exact ⟨ns, h1, h2⟩
      refine List.Nodup.append ?_ (ihr hd.2.2.2) ?_
      · rw [List.nodup_cons]
        constructor
        · intro hx
          obtain ⟨y, hy, e⟩ := List.mem_map.1 hx
          obtain ⟨ns, hne, h1, _, h2⟩ := join y hy
          have e' : ['/'].intercalate (m :: ns) = ['/'].intercalate [m] := by
            rw [← h2, e]; simp [List.intercalate]
          have := rel_inj (by simp) (by simp) (names ns h1) (by simpa using hd.1) e'
          simp at this
          exact hne this
        · refine List.Nodup.map_on ?_ (ihs hd.2.2.1)
          intro x hx y hy e
          obtain ⟨ns, _, h1, rfl, h2⟩ := join x hx
          obtain ⟨ns', _, h1', rfl, h2'⟩ := join y hy
          have := rel_inj (by simp) (by simp) (names ns h1) (names ns' h1') (h2.symm.trans (e.trans h2'))
          rw [(List.cons.inj this).2]
      · intro x hx hx'
        obtain ⟨ns, h1, rfl⟩ := hfirst x hx
        obtain ⟨ns', hne, h1', _, e⟩ := (mem_rlist hd.2.2.2 _).1 hx'
        have := rel_inj (by simp) hne (names ns h1) (dir_names hd.2.2.2 h1') e
        rw [← this, isDir_cons, hd.2.1] at h1'
        cases h1'

/-- Where the entry that `glob` returned is. -/
theorem glob_at {disk : Dir} (hok : disk.Ok) {cwd : List Text} {path : Text} {top : List Text} (h : Leads disk cwd path top)
    {ns : List Text} {f : Text} (hg : disk.get (top ++ ns ++ [f]) ≠ none) :
    disk.at cwd (openedAs path (ns ++ [f])) = some (top ++ ns ++ [f]) ∧ (∀ n ∈ ns, Name n) ∧ Name f := by
  obtain ⟨x, hx⟩ := Option.ne_none_iff_exists'.1 hg
  have hnames := (get_names hok hx).1
  refine ⟨at_opened h ?_ (fun n hn => hnames n (by simp [hn])) (hnames _ (by simp)), fun n hn => hnames n (by simp [hn]),
    hnames _ (by simp)⟩
  rw [get_append _ _ _ (by simp)] at hx
  cases hx' : disk.get (top ++ ns) with
  | none => rw [hx'] at hx; cases hx
  | some e =>
    cases e with
    | dir e => exact isDir_iff.2 ⟨e, hx'⟩
    | file t => rw [hx'] at hx; cases hx

theorem join_last {a f : Text} (hf : Name f) : ∃ b, joinPath a f = b ++ f ∧ (splitCh '/' (joinPath a f)).getLastD [] = f := by
  have hsp : splitCh '/' f = [f] := by
    have := split_intercalate (ns := [f]) (by simp) (by simpa using hf.2.1)
    simpa [List.intercalate] using this
  have key : ∀ b : Text, (splitCh '/' (b ++ '/' :: f)).getLastD [] = f := by
    intro b
    rw [split_cat, hsp]
    simp
  rw [joinPath, not_abs hf.2.1, if_neg (by simp)]
  by_cases ha : (a.isEmpty || (lit "/").isSuffixOf a) = true
  · rw [if_pos ha]
    refine ⟨a, rfl, ?_⟩
    rw [Bool.or_eq_true] at ha
    rcases ha with ha | ha
    · have : a = [] := by simpa using ha
      rw [this, List.nil_append, hsp]; rfl
    · obtain ⟨b, rfl⟩ := List.isSuffixOf_iff_suffix.1 ha
      have := key b
      simpa [lit] using this
  · rw [if_neg ha]
    refine ⟨a ++ lit "/", rfl, ?_⟩
    have := key a
    simpa [lit] using this

theorem nodup_glob {disk : Dir} (hok : disk.Ok) {cwd : List Text} {path : Text} {top : List Text} (h : Leads disk cwd path top)
    (mode : Text) : (disk.glob cwd path mode).Nodup := by
  obtain ⟨d, hd⟩ := isDir_iff.1 h.2
  have hdok : d.Ok := (get_names hok hd).2 d rfl
  have hlook : disk.look cwd (globBase path) = some (.dir d) := by
    rw [Dir.look, (at_join h (x := []) rfl).2]
    exact hd
  have hin : ∀ x ∈ [] :: d.rlist, ∃ ns, d.isDir ns = true ∧ x = ['/'].intercalate ns := by
    intro x hx
    rcases List.mem_cons.1 hx with rfl | hx
    · exact ⟨[], rfl, rfl⟩
    · obtain ⟨ns, _, h1, _, rfl⟩ := (mem_rlist hdok x).1 hx
      exact ⟨ns, h1, rfl⟩
  have hcase : ∀ x ∈ [] :: d.rlist, ∃ ns e, d.isDir ns = true ∧ x = ['/'].intercalate ns ∧ e.Ok ∧
      disk.get (top ++ ns) = some (.dir e) ∧ disk.look cwd (joinPath (globBase path) x) = some (.dir e) := by
    intro x hx
    obtain ⟨ns, h1, rfl⟩ := hin x hx
    have h' : disk.isDir (top ++ ns) = true := by rw [get_below hd]; exact h1
    obtain ⟨e, he⟩ := isDir_iff.1 h'
    refine ⟨ns, e, h1, rfl, (get_names hok he).2 e rfl, he, ?_⟩
    have := at_opened_dir h h' (dir_names hdok h1)
    rw [openedAs] at this
    rw [Dir.look, this]
    exact he
  have hone : ∀ (e : Dir), e.Ok → ∀ n ∈ e.names, Name n := by
    intro e he n hn
    obtain ⟨x, hx⟩ := Option.ne_none_iff_exists'.1 ((mem_names e n).1 hn)
    exact (find_name he hx).1
  unfold Dir.glob
  rw [hlook]
  simp only
  rw [List.nodup_flatMap]
  constructor
  · intro dn hdn
    obtain ⟨x, hx, rfl⟩ := List.mem_map.1 hdn
    obtain ⟨ns, e, _, _, heok, _, hl⟩ := hcase x hx
    rw [hl]
    refine List.Nodup.map_on ?_ ((nodup_names heok).filter _)
    intro a ha b hb e'
    have hna := hone e heok a (List.mem_filter.1 ha).1
    have hnb := hone e heok b (List.mem_filter.1 hb).1
    obtain ⟨_, _, h1⟩ := join_last (a := joinPath (globBase path) x) hna
    obtain ⟨_, _, h2⟩ := join_last (a := joinPath (globBase path) x) hnb
    rw [← h1, e', h2]
  · rw [List.pairwise_map]
    have hnd : ([] :: d.rlist).Nodup := by
      rw [List.nodup_cons]
      refine ⟨fun hx => ?_, nodup_rlist hdok⟩
      obtain ⟨ns, hne, h1, _, e⟩ := (mem_rlist hdok _).1 hx
      have hn := dir_names hdok h1
      match ns with
      | [] => exact hne rfl
      | [n] => exact (hn n (by simp)).1 (by simpa [List.intercalate] using e.symm)
      | n :: m :: ns => rw [intercalate_cons (by simp)] at e; simp at e
    refine hnd.imp_of_mem ?_
    intro x y hx hy hxy p hp hp'
    obtain ⟨ns, e, h1, rfl, heok, he, hl⟩ := hcase x hx
    obtain ⟨ns', e', h1', rfl, heok', he', hl'⟩ := hcase y hy
    simp only [hl] at hp
    simp only [hl'] at hp'
    obtain ⟨f, hf, rfl⟩ := List.mem_map.1 hp
    obtain ⟨f', hf', e2⟩ := List.mem_map.1 hp'
    have hf := (List.mem_filter.1 hf).1
    have hf' := (List.mem_filter.1 hf').1
    have o1 := opened_join path (dir_names hdok h1) (hone e heok f hf)
    have o2 := opened_join path (dir_names hdok h1') (hone e' heok' f' hf')
    have a1 := at_opened h (ms := ns) (isDir_iff.2 ⟨e, he⟩) (dir_names hdok h1) (hone e heok f hf)
    have a2 := at_opened h (ms := ns') (isDir_iff.2 ⟨e', he'⟩) (dir_names hdok h1') (hone e' heok' f' hf')
    rw [openedAs] at o1 o2
    rw [← o1] at a1
    rw [← o2, e2, a1, Option.some.injEq] at a2
    obtain ⟨b1, b2⟩ := List.append_inj' a2 rfl
    exact hxy (by rw [List.append_cancel_left b1])

theorem leads_dirs {d e : Dir} (hd : ∀ q, e.isDir q = d.isDir q) {cwd : List Text} {path : Text} {top : List Text}
    (h : Leads d cwd path top) : Leads e cwd path top := by
  refine ⟨?_, by rw [hd]; exact h.2⟩
  rcases h.1 with h | ⟨h1, h2⟩
  · exact .inl h
  · refine .inr ⟨h1, ?_⟩
    rw [← h2]
    exact follow_congr hd _ _

/-! ### What is shown -/

theorem forall₂_imp_mem {α β : Type} {r r' : α → β → Prop} {l : List α} {m : List β} (h : List.Forall₂ r l m)
    (hi : ∀ a b, a ∈ l → r a b → r' a b) : List.Forall₂ r' l m := by
  induction h with
  | nil => exact .nil
  | cons h1 _ ih => exact .cons (hi _ _ (by simp) h1) (ih fun a b ha => hi a b (by simp [ha]))

theorem forall₂_mem_left {α β : Type} {r : α → β → Prop} {l : List α} {m : List β} (h : List.Forall₂ r l m) {a : α}
    (ha : a ∈ l) : ∃ b ∈ m, r a b := by
  induction h with
  | nil => cases ha
  | cons h1 _ ih =>
    rcases List.mem_cons.1 ha with rfl | ha
    · exact ⟨_, by simp, h1⟩
    · obtain ⟨b, hb, hr⟩ := ih ha
      exact ⟨b, by simp [hb], hr⟩

theorem pickles_spec (load : Text → PyM Text) (disk : Dir) (cwd : List Text) (files : List Text) :
    ∃ good rest, files = good ++ rest ∧
      List.Forall₂ (fun p r => (∃ t, disk.look cwd p = some (.file t) ∧ load t = .ok r.2) ∧ r.1 = (splitCh '/' p).getLastD [])
        good (disk.pickles load cwd files).1 ∧
      (rest = [] ∧ (disk.pickles load cwd files).2 = .ok () ∨ ∃ p rest' e, rest = p :: rest' ∧
        (disk.pickles load cwd files).2 = .error e ∧
        ((∃ t, disk.look cwd p = some (.file t) ∧ load t = .error e) ∨ (∀ t, disk.look cwd p ≠ some (.file t)) ∧ e = .os)) := by
  induction files with
  | nil => exact ⟨[], [], rfl, .nil, .inl ⟨rfl, rfl⟩⟩
  | cons p files ih =>
    have bad : (∀ t, disk.look cwd p ≠ some (.file t)) → disk.pickles load cwd (p :: files) = ([], .error .os) := by
      intro h
      rw [Dir.pickles]
      split
      · rename_i t ht
        exact absurd ht (h t)
      · rfl
    by_cases hp : ∃ t, disk.look cwd p = some (.file t)
    · obtain ⟨t, ht⟩ := hp
      cases hl : load t with
      | error e =>
        have e1 : disk.pickles load cwd (p :: files) = ([], .error e) := by simp only [Dir.pickles, ht, hl]
        rw [e1]
        exact ⟨[], p :: files, rfl, .nil, .inr ⟨p, files, e, rfl, rfl, .inl ⟨t, ht, hl⟩⟩⟩
      | ok r =>
        have e1 : disk.pickles load cwd (p :: files) = (((splitCh '/' p).getLastD [], r) :: (disk.pickles load cwd files).1,
            (disk.pickles load cwd files).2) := by simp only [Dir.pickles, ht, hl]
        obtain ⟨good, rest, h1, h2, h3⟩ := ih
        rw [e1]
        exact ⟨p :: good, rest, by rw [h1]; rfl, .cons ⟨⟨t, ht, hl⟩, rfl⟩ h2, h3⟩
    · rw [bad fun t ht => hp ⟨t, ht⟩]
      exact ⟨[], p :: files, rfl, .nil, .inr ⟨p, files, .os, rfl, rfl, .inr ⟨fun t ht => hp ⟨t, ht⟩, rfl⟩⟩⟩

/-- **C94.** `experimental.py -m pkl path` (or `-m pickle`), for an argument that leads to a directory. It goes through the
visible entries below it whose names end in `.pkl`, each once. It shows the name and the saved result of one after the other,
until one is a directory or cannot be read; then it raises. If there is none, it shows them all. The disk is not changed. -/
theorem C94_shows {disk : Dir} (hok : disk.Ok) {cuda : Bool} {cwd : List Text} {path : Text} {top : List Text} (_ : Plain path)
    (h : Leads disk cwd path top) {mode : Text} (hmode : mode = lit "pkl" ∨ mode = lit "pickle") {backend : Text}
    (hb : backend = lit "sparse" ∨ backend = lit "numpy" ∨ cuda = true ∧ (backend = lit "cuda" ∨ backend = lit "sparse-cuda"))
    (process : Text → Text → Text → PyM Text) (load : Text → PyM Text) :
    ∃ good rest : List (List Text), (good ++ rest).Nodup ∧ (∀ q, q ∈ good ++ rest ↔ Entry.Below disk top mode q) ∧
      List.Forall₂ (fun q r => q.getLast? = some r.1 ∧ readBack load disk q = .ok r.2) good (batchShown load cwd mode path disk) ∧
      (rest = [] ∧ batchMain process load cuda cwd mode backend path disk = .ok disk ∨
        ∃ q rest' e, rest = q :: rest' ∧ readBack load disk q = .error e ∧
          batchMain process load cuda cwd mode backend path disk = .error e) := by
  have hb2 : backend ∈ [lit "sparse", lit "numpy", lit "cuda", lit "sparse-cuda"] := by
    rcases hb with rfl | rfl | ⟨_, rfl | rfl⟩ <;> simp
  have hb3 : ¬ (backend ∈ [lit "cuda", lit "sparse-cuda"] ∧ cuda = false) := by
    rcases hb with rfl | rfl | ⟨hc, _⟩
    · decide +revert
    · decide +revert
    · simp [hc]
  have hm1 : mode ∉ [lit "txt", lit "qasm"] := by rcases hmode with rfl | rfl <;> decide
  have hm2 : mode ∈ [lit "pkl", lit "pickle"] := by rcases hmode with rfl | rfl <;> simp
  have hrun : batchMain process load cuda cwd mode backend path disk =
      match (disk.pickles load cwd (disk.glob cwd path mode)).2 with
      | .ok _ => .ok disk
      | .error e => .error e := by
    unfold batchMain
    rw [if_neg (not_not.2 hb2), if_neg hb3]
    simp only
    rw [if_neg hm1, if_pos hm2]
    cases (Dir.pickles load disk cwd (disk.glob cwd path mode)).2 <;> rfl
  have hshown : batchShown load cwd mode path disk = (disk.pickles load cwd (disk.glob cwd path mode)).1 := by
    rw [batchShown, if_pos hm2]
  obtain ⟨good, rest, h1, h2, h3⟩ := pickles_spec load disk cwd (disk.glob cwd path mode)
  have place : ∀ p ∈ disk.glob cwd path mode, ∃ ns f, disk.get (top ++ ns ++ [f]) ≠ none ∧ Shown (ns ++ [f]) ∧
      '.' :: mode <:+ f ∧ p = openedAs path (ns ++ [f]) ∧ disk.at cwd p = some (top ++ ns ++ [f]) ∧
      (splitCh '/' p).getLastD [] = f := by
    intro p hp
    obtain ⟨ns, f, hg, hs, hf, rfl⟩ := (mem_glob hok h mode p).1 hp
    obtain ⟨a1, a2, a3⟩ := glob_at hok h hg
    refine ⟨ns, f, hg, hs, hf, rfl, a1, ?_⟩
    rw [← opened_join path a2 a3]
    exact (join_last a3).choose_spec.2
  let loc : Text → List Text := fun p => (disk.at cwd p).getD []
  have hread : ∀ p ∈ disk.glob cwd path mode, ∃ ns f, loc p = top ++ ns ++ [f] ∧ (splitCh '/' p).getLastD [] = f ∧
      disk.look cwd p = disk.get (loc p) := by
    intro p hp
    obtain ⟨ns, f, _, _, _, _, hat, hl⟩ := place p hp
    have e : loc p = top ++ ns ++ [f] := by simp only [loc, hat, Option.getD_some]
    refine ⟨ns, f, e, hl, ?_⟩
    rw [Dir.look, hat, e]
  have good_mem : ∀ p ∈ good, p ∈ disk.glob cwd path mode := fun p hp => by rw [h1]; simp [hp]
  have rest_mem : ∀ p ∈ rest, p ∈ disk.glob cwd path mode := fun p hp => by rw [h1]; simp [hp]
  refine ⟨good.map loc, rest.map loc, ?_, ?_, ?_, ?_⟩
  · rw [← List.map_append, ← h1]
    refine List.Nodup.map_on ?_ (nodup_glob hok h mode)
    intro p hp p' hp' e
    obtain ⟨ns, f, _, _, _, rfl, hat, _⟩ := place p hp
    obtain ⟨ns', f', _, _, _, rfl, hat', _⟩ := place p' hp'
    simp only [loc, hat, hat', Option.getD_some] at e
    obtain ⟨e1, e2⟩ := List.append_inj' e rfl
    rw [List.append_cancel_left e1, e2]
  · intro q
    rw [← List.map_append, ← h1, List.mem_map]
    constructor
    · rintro ⟨p, hp, rfl⟩
      obtain ⟨ns, f, hg, hs, hf, _, hat, _⟩ := place p hp
      have e : loc p = top ++ ns ++ [f] := by simp only [loc, hat, Option.getD_some]
      exact ⟨ns, f, e, by rw [e]; exact hg, hs, hf⟩
    · rintro ⟨ns, f, rfl, hg, hs, hf⟩
      refine ⟨openedAs path (ns ++ [f]), (mem_glob hok h mode _).2 ⟨ns, f, hg, hs, hf, rfl⟩, ?_⟩
      simp only [loc, (glob_at hok h hg).1, Option.getD_some]
  · rw [hshown, List.forall₂_map_left_iff]
    refine forall₂_imp_mem h2 ?_
    rintro p r hp ⟨⟨t, ht, hl⟩, hr⟩
    obtain ⟨ns, f, e, hlast, hlook⟩ := hread p (good_mem p hp)
    refine ⟨by rw [hr, hlast, e]; simp, ?_⟩
    rw [hlook] at ht
    rw [readBack, text_iff.2 ht]
    exact hl
  · rcases h3 with ⟨rfl, h3⟩ | ⟨p, rest', e, rfl, h3, h4⟩
    · exact .inl ⟨rfl, by rw [hrun, h3]⟩
    · refine .inr ⟨loc p, rest'.map loc, e, rfl, ?_, by rw [hrun, h3]⟩
      obtain ⟨ns, f, e1, hlast, hlook⟩ := hread p (rest_mem p (by simp))
      rw [hlook] at h4
      rw [readBack]
      rcases h4 with ⟨t, ht, hl⟩ | ⟨hno, rfl⟩
      · rw [text_iff.2 ht]
        exact hl
      · cases ht : disk.text (loc p) with
        | none => rfl
        | some t => exact absurd (text_iff.1 ht) (hno t)

/-- **C94.** So a result file that cannot be read, such as the beginning of a result that a stopped batch leaves behind
(C75), makes `-m pkl` raise, wherever it is below the argument. -/
theorem C94_incomplete {disk : Dir} (hok : disk.Ok) {cuda : Bool} {cwd : List Text} {path : Text} {top : List Text} (hp : Plain path)
    (h : Leads disk cwd path top) {mode : Text} (hmode : mode = lit "pkl" ∨ mode = lit "pickle") {backend : Text}
    (hb : backend = lit "sparse" ∨ backend = lit "numpy" ∨ cuda = true ∧ (backend = lit "cuda" ∨ backend = lit "sparse-cuda"))
    (process : Text → Text → Text → PyM Text) (load : Text → PyM Text) {q : List Text} (hq : Entry.Below disk top mode q)
    {e : Err} (he : readBack load disk q = .error e) :
    ∃ e', batchMain process load cuda cwd mode backend path disk = .error e' := by
  obtain ⟨good, rest, _, h2, h3, h4⟩ := C94_shows hok hp h hmode hb process load
  rcases h4 with ⟨rfl, _⟩ | ⟨_, _, e', _, _, h4⟩
  · exfalso
    have hm := (h2 q).2 hq
    rw [List.append_nil] at hm
    obtain ⟨r, _, hr⟩ := forall₂_mem_left h3 hm
    rw [he] at hr
    cases hr.2
  · exact ⟨e', h4⟩

/-- **C94.** Saving and showing. If there is no visible entry `….pkl` below the argument, and what is saved can be read, then
after `experimental.py -m txt -b backend path` (or `-m qasm`), `-m pkl` with the same path shows the results of exactly the
circuit files that did not fail, each once, and changes nothing. -/
theorem C94_after_batch {disk : Dir} (hok : disk.Ok) {cuda : Bool} {cwd : List Text} {path : Text} {top : List Text} (hp : Plain path)
    (h : Leads disk cwd path top) {mode : Text} (hmode : mode = lit "txt" ∨ mode = lit "qasm") {backend : Text}
    (hb : backend = lit "sparse" ∨ backend = lit "numpy" ∨ cuda = true ∧ (backend = lit "cuda" ∨ backend = lit "sparse-cuda"))
    (process : Text → Text → Text → PyM Text) (load : Text → PyM Text)
    (hnone : ∀ q, ¬ Entry.Below disk top (lit "pkl") q)
    (hload : ∀ file t r, process backend file t = .ok r → ∃ v, load r = .ok v) :
    ∃ (name : List Text → Text → Text) (disk' : Dir) (done : List (List Text × Text)),
      batchMain process load cuda cwd mode backend path disk = .ok disk' ∧
      (∀ ns stem t, CircuitFile disk top mode ns stem t →
        disk.at cwd (name ns stem) = some (top ++ ns ++ [stem ++ '.' :: mode])) ∧
      done.Nodup ∧ (∀ x, x ∈ done ↔ ∃ t r, CircuitFile disk top mode x.1 x.2 t ∧ process backend (name x.1 x.2) t = .ok r) ∧
      batchMain process load cuda cwd (lit "pkl") backend path disk' = .ok disk' ∧
      List.Forall₂ (fun x s => s.1 = x.2 ++ lit "-" ++ backend ++ lit ".pkl" ∧ ∃ t r, CircuitFile disk top mode x.1 x.2 t ∧
        process backend (name x.1 x.2) t = .ok r ∧ load r = .ok s.2) done (batchShown load cwd (lit "pkl") path disk') := by
  obtain ⟨name, disk', h1, h2, h3, h4, h5, h6, h7⟩ := C86_batch hok (cuda := cuda) hp h hmode hb process load
  have hl : Leads disk' cwd path top := leads_dirs h6 h
  have shownRes : ∀ ns stem t, CircuitFile disk top mode ns stem t →
      Shown (ns ++ [stem ++ lit "-" ++ backend ++ lit ".pkl"]) := by
    intro ns stem t hc n hn
    rcases List.mem_append.1 hn with hn | hn
    · exact hc.2 n (by simp [hn])
    · rw [List.mem_singleton.1 hn]
      have := hc.2 (stem ++ '.' :: mode) (by simp)
      cases stem with
      | nil => exact absurd ⟨mode, rfl⟩ this
      | cons c stem =>
        rintro ⟨x, hx⟩
        refine this ?_
        simp [lit] at hx
        rw [← hx.1]
        exact ⟨stem ++ '.' :: mode, rfl⟩
  have sfx : ∀ (ns : List Text) (stem : Text), '.' :: lit "pkl" <:+ stem ++ lit "-" ++ backend ++ lit ".pkl" := fun _ stem => ⟨stem ++ lit "-" ++ backend, rfl⟩
  have noDir : ∀ ns stem t, CircuitFile disk top mode ns stem t → disk.isDir (resultPath top backend ns stem) = false := by
    intro ns stem t hc
    rw [Bool.eq_false_iff]
    intro hd
    obtain ⟨e, he⟩ := isDir_iff.1 hd
    refine hnone (resultPath top backend ns stem) ⟨ns, _, rfl, by rw [he]; simp, shownRes ns stem t hc, sfx ns stem⟩
  have made : ∀ ns stem t r, CircuitFile disk top mode ns stem t → process backend (name ns stem) t = .ok r →
      disk'.text (resultPath top backend ns stem) = some r ∧ Entry.Below disk' top (lit "pkl") (resultPath top backend ns stem) := by
    intro ns stem t r hc hr
    have ht := h3 ns stem t r hc hr (noDir ns stem t hc)
    refine ⟨ht, ns, _, rfl, ?_, shownRes ns stem t hc, sfx ns stem⟩
    rw [text_iff.1 ht]; simp
  have only : ∀ q, Entry.Below disk' top (lit "pkl") q → ∃ x : List Text × Text, q = resultPath top backend x.1 x.2 ∧ ∃ t r,
      CircuitFile disk top mode x.1 x.2 t ∧ process backend (name x.1 x.2) t = .ok r ∧ disk'.text q = some r := by
    rintro q ⟨ns, f, rfl, hg, hs, hf⟩
    by_contra hno
    have htext : disk'.text (top ++ ns ++ [f]) = disk.text (top ++ ns ++ [f]) := by
      refine h4 _ fun ns' stem t r hc hr he => hno ⟨(ns', stem), he, t, r, hc, hr, ?_⟩
      rw [he]
      exact (made ns' stem t r hc hr).1
    refine hnone _ ⟨ns, f, rfl, ?_, hs, hf⟩
    obtain ⟨x, hx⟩ := Option.ne_none_iff_exists'.1 hg
    cases x with
    | file t =>
      rw [text_iff.2 hx] at htext
      rw [text_iff.1 htext.symm]; simp
    | dir e =>
      have := h6 (top ++ ns ++ [f])
      rw [isDir_iff.2 ⟨e, hx⟩] at this
      obtain ⟨e', he'⟩ := isDir_iff.1 this.symm
      rw [he']; simp
  obtain ⟨good, rest, k1, k2, k3, k4⟩ := C94_shows h7 (cuda := cuda) hp hl (.inl rfl) hb process load
  have hrest : rest = [] ∧ batchMain process load cuda cwd (lit "pkl") backend path disk' = .ok disk' := by
    rcases k4 with k4 | ⟨q, rest', e, rfl, k4, _⟩
    · exact k4
    · exfalso
      obtain ⟨x, rfl, t, r, hc, hr, ht⟩ := only q ((k2 q).1 (by simp))
      obtain ⟨v, hv⟩ := hload _ _ _ hr
      rw [readBack, ht] at k4
      rw [show load r = .error e from k4] at hv
      cases hv
  obtain ⟨rfl, hrun⟩ := hrest
  rw [List.append_nil] at k1 k2
  have hgood : ∀ q ∈ good, ∃ x : List Text × Text, q = resultPath top backend x.1 x.2 ∧ ∃ t r,
      CircuitFile disk top mode x.1 x.2 t ∧ process backend (name x.1 x.2) t = .ok r ∧ disk'.text q = some r :=
    fun q hq => only q ((k2 q).1 hq)
  choose! g hg using hgood
  refine ⟨name, disk', good.map g, h1, h2, ?_, ?_, hrun, ?_⟩
  · refine List.Nodup.map_on ?_ k1
    intro q hq q' hq' e
    rw [(hg q hq).1, e, ← (hg q' hq').1]
  · intro x
    rw [List.mem_map]
    constructor
    · rintro ⟨q, hq, rfl⟩
      obtain ⟨_, t, r, hc, hr, _⟩ := hg q hq
      exact ⟨t, r, hc, hr⟩
    · rintro ⟨t, r, hc, hr⟩
      have hq := (k2 _).2 (made _ _ _ _ hc hr).2
      refine ⟨_, hq, ?_⟩
      obtain ⟨e1, e2⟩ := resultPath_inj (hg _ hq).1
      exact Prod.ext e1.symm e2.symm
  · rw [List.forall₂_map_left_iff]
    refine forall₂_imp_mem k3 ?_
    rintro q s hq ⟨hs, hread⟩
    obtain ⟨e, t, r, hc, hr, ht⟩ := hg q hq
    refine ⟨?_, t, r, hc, hr, ?_⟩
    · rw [e, resultPath] at hs
      simpa using hs.symm
    · rw [readBack, ht] at hread
      exact hread

/-! ### Instances -/

/-- A directory with two results, one of them incomplete. -/
def resultDisk : Dir :=
  .dir (lit "t") (.file (lit "a-numpy.pkl") (lit "1.") (.dir (lit "s") (.file (lit "b-numpy.pkl") (lit "2") .nil)
    (.file (lit "a.txt") (lit "1") .nil))) .nil

theorem resultDisk_ok : resultDisk.Ok := by
  have hn : Name (lit "t") ∧ Name (lit "a-numpy.pkl") ∧ Name (lit "s") ∧ Name (lit "b-numpy.pkl") ∧ Name (lit "a.txt") := by
    unfold Name; decide +kernel
  exact ⟨hn.1, rfl, ⟨hn.2.1, rfl, hn.2.2.1, rfl, ⟨hn.2.2.2.1, rfl, trivial⟩, hn.2.2.2.2, rfl, trivial⟩, trivial⟩

/-- A saved result ends with a dot, as pickles do. -/
def loadSample (t : Text) : PyM Text := if t.getLast? = some '.' then .ok t.dropLast else .error .value

/-- The first result is shown, then the script raises. -/
example : batchShown loadSample [] (lit "pkl") (lit "t") resultDisk = [(lit "a-numpy.pkl", lit "1")] ∧
    (batchMain (fun _ _ _ => .ok []) loadSample false [] (lit "pkl") (lit "numpy") (lit "t") resultDisk).toBool = false := by
  decide +kernel

/-- The hypotheses of `C94_shows`. -/
example := C94_shows resultDisk_ok (cuda := false) (cwd := []) (path := lit "t") (top := [lit "t"]) (by unfold Plain; decide)
  ⟨.inr ⟨by decide, by decide +kernel⟩, rfl⟩ (.inl rfl) (.inr (.inl rfl)) (fun _ _ _ => .ok []) loadSample

/-- The hypotheses of `C94_incomplete`. -/
example := C94_incomplete resultDisk_ok (cuda := false) (cwd := []) (path := lit "t") (top := [lit "t"]) (by unfold Plain; decide)
  ⟨.inr ⟨by decide, by decide +kernel⟩, rfl⟩ (.inl rfl) (.inr (.inl rfl)) (fun _ _ _ => .ok []) loadSample
  (q := [lit "t", lit "s", lit "b-numpy.pkl"]) (e := .value)
  ⟨[lit "s"], lit "b-numpy.pkl", rfl, by decide +kernel, by unfold Shown; decide, lit "b-numpy", rfl⟩ (by decide +kernel)

/-- The hypotheses of `C94_after_batch`: the disk of C86, which has no results yet. -/
example := C94_after_batch sampleDisk_ok (cuda := false) (cwd := [lit "t"]) (path := lit "./s/..//") (top := [lit "t"])
  (by unfold Plain; decide) ⟨.inr ⟨by decide, by decide +kernel⟩, rfl⟩ (.inl rfl) (.inl rfl)
  (fun _ _ t => if t = lit "2" then .ok (lit "result") else .error .index) .ok (by
    rintro q ⟨ns, f, rfl, hg, hs, s, rfl⟩
    have hm := (mem_glob sampleDisk_ok (cwd := [lit "t"]) (path := lit "./s/..//") (top := [lit "t"])
      ⟨.inr ⟨by decide, by decide +kernel⟩, rfl⟩ (lit "pkl") _).2 ⟨ns, _, hg, hs, ⟨s, rfl⟩, rfl⟩
    have e : sampleDisk.glob [lit "t"] (lit "./s/..//") (lit "pkl") = [] := by decide +kernel
    rw [e] at hm
    cases hm) (fun _ _ r _ => ⟨r, rfl⟩)

end QuDiet.Tools
