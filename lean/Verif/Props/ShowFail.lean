import Verif.Props.BatchFail

/-! # C101: showing saved results when files or directories cannot be accessed -/

namespace QuDiet.Tools
open QuDiet.Qasm

/-! ### Specification -/

/-- What reading the saved result at this place of the disk gives, if accesses may fail. -/
def readIf (acc : Access) (load : Text → PyM Text) (disk : Dir) (q : List Text) : PyM Text :=
  match disk.text q with
  | some t => match acc.load q with
    | some e => .error e
    | none => load t
  | none => .error .os

/-- The entries whose names end in `.mode` in directories that can be come to from `top`. -/
def Entry.Met (acc : Access) (disk : Dir) (top : List Text) (mode : Text) (q : List Text) : Prop :=
  ∃ ns f, q = top ++ ns ++ [f] ∧ disk.get q ≠ none ∧ Shown (ns ++ [f]) ∧ '.' :: mode <:+ f ∧ Listable acc top ns

/-! ### `glob` lists nothing twice -/

theorem rlist_seen_sublist (acc : Access) (here : List Text) (d : Dir) : ((d.seen acc here).rlist).Sublist d.rlist := by
  induction d generalizing here with
  | nil => exact .slnil
  | file n t r ih => exact ih here
  | dir n s r ih1 ih2 =>
    simp only [Dir.seen, Dir.rlist]
    refine List.Sublist.append ?_ (ih2 here)
    split
    · exact .slnil
    · refine List.Sublist.cons_cons _ (List.Sublist.map _ ?_)
      split
      · exact List.nil_sublist _
      · exact ih1 _

theorem flatMap_sublist {α β : Type} {f g : α → List β} (h : ∀ a, (f a).Sublist (g a)) {l m : List α} (hl : l.Sublist m) :
    (l.flatMap f).Sublist (m.flatMap g) := by
  induction hl with
  | slnil => exact .slnil
  | cons a _ ih => rw [List.flatMap_cons]; exact ih.trans (List.sublist_append_right _ _)
  | cons_cons a _ ih => rw [List.flatMap_cons, List.flatMap_cons]; exact (h a).append ih

theorem globIf_sublist (acc : Access) (disk : Dir) (cwd : List Text) (path mode : Text) :
    (disk.globIf acc cwd path mode).Sublist (disk.glob cwd path mode) := by
  unfold Dir.globIf Dir.glob Dir.look
  cases disk.at cwd (globBase path) with
  | none => exact .slnil
  | some top =>
    simp only
    cases disk.get top with
    | none => exact .slnil
    | some e =>
      cases e with
      | file t => exact .slnil
      | dir d =>
        simp only
        refine flatMap_sublist ?_ (List.Sublist.map _ (List.Sublist.cons_cons _ ?_))
        · intro dn
          cases disk.at cwd dn with
          | none => exact .slnil
          | some ns =>
            simp only
            cases disk.get ns with
            | none => exact .slnil
            | some e =>
              cases e with
              | file t => exact .slnil
              | dir d =>
                simp only
                split
                · exact List.nil_sublist _
                · exact List.Sublist.refl _
        · split
          · exact List.nil_sublist _
          · exact rlist_seen_sublist acc top d

/-! ### What is shown -/

/-- What is read of a file that is opened by this name. -/
def openIf (acc : Access) (load : Text → PyM Text) (disk : Dir) (cwd : List Text) (p : Text) : PyM Text :=
  match disk.at cwd p with
  | some q => readIf acc load disk q
  | none => .error .os

theorem text_none {disk : Dir} {q : List Text} : disk.text q = none ↔ ∀ t, disk.get q ≠ some (.file t) := by
  constructor
  · intro h t ht
    rw [text_iff.2 ht] at h
    cases h
  · intro h
    cases ht : disk.text q with
    | none => rfl
    | some t => exact absurd (text_iff.1 ht) (h t)

theorem picklesIf_cons (acc : Access) (load : Text → PyM Text) (disk : Dir) (cwd : List Text) (p : Text) (ps : List Text) :
    disk.picklesIf acc load cwd (p :: ps) = match openIf acc load disk cwd p with
      | .ok r => (((splitCh '/' p).getLastD [], r) :: (disk.picklesIf acc load cwd ps).1, (disk.picklesIf acc load cwd ps).2)
      | .error e => ([], .error e) := by
  rw [Dir.picklesIf, openIf]
  cases disk.at cwd p with
  | none => rfl
  | some ns =>
    simp only
    rw [readIf]
    cases hg : disk.get ns with
    | none => rw [text_none.2 fun t => by rw [hg]; simp]
    | some e =>
      cases e with
      | dir d => rw [text_none.2 fun t => by rw [hg]; simp]
      | file t =>
        rw [text_iff.2 hg]
        simp only
        cases acc.load ns with
        | some e => rfl
        | none =>
          simp only
          cases load t <;> rfl

theorem picklesIf_spec (acc : Access) (load : Text → PyM Text) (disk : Dir) (cwd : List Text) (files : List Text) :
    ∃ good rest, files = good ++ rest ∧
      List.Forall₂ (fun p r => openIf acc load disk cwd p = .ok r.2 ∧ r.1 = (splitCh '/' p).getLastD [])
        good (disk.picklesIf acc load cwd files).1 ∧
      (rest = [] ∧ (disk.picklesIf acc load cwd files).2 = .ok () ∨ ∃ p rest' e, rest = p :: rest' ∧
        (disk.picklesIf acc load cwd files).2 = .error e ∧ openIf acc load disk cwd p = .error e) := by
  induction files with
  | nil => exact ⟨[], [], rfl, .nil, .inl ⟨rfl, rfl⟩⟩
  | cons p files ih =>
    rw [picklesIf_cons]
    cases hp : openIf acc load disk cwd p with
    | error e => exact ⟨[], p :: files, rfl, .nil, .inr ⟨p, files, e, rfl, rfl, hp⟩⟩
    | ok r =>
      obtain ⟨good, rest, h1, h2, h3⟩ := ih
      exact ⟨p :: good, rest, by rw [h1]; rfl, .cons ⟨hp, rfl⟩ h2, h3⟩

variable {disk : Dir} {cuda : Bool} {cwd : List Text} {path : Text} {top : List Text} {mode backend : Text}

/-- **C101.** `experimental.py -m pkl path` (or `-m pickle`) where directories may refuse to be listed and files to be opened or
read. It goes through the visible entries ending in `.pkl` in the directories that it can come to, each once, and shows their
names and results one after the other, until one cannot be read; then it raises what opening or reading that one raises. If there is
none, it shows them all. -/
theorem C101_shows (hok : disk.Ok) (_ : Plain path) (h : Leads disk cwd path top) (_ : mode = lit "pkl" ∨ mode = lit "pickle")
    (hb : backend = lit "sparse" ∨ backend = lit "numpy" ∨ cuda = true ∧ (backend = lit "cuda" ∨ backend = lit "sparse-cuda"))
    (acc : Access) (load : Text → PyM Text) :
    ∃ good rest : List (List Text), (good ++ rest).Nodup ∧ (∀ q, q ∈ good ++ rest ↔ Entry.Met acc disk top mode q) ∧
      List.Forall₂ (fun q r => q.getLast? = some r.1 ∧ readIf acc load disk q = .ok r.2) good
        (batchShowIf acc load cuda cwd mode backend path disk).1 ∧
      (rest = [] ∧ (batchShowIf acc load cuda cwd mode backend path disk).2 = .ok () ∨
        ∃ q rest' e, rest = q :: rest' ∧ readIf acc load disk q = .error e ∧
          (batchShowIf acc load cuda cwd mode backend path disk).2 = .error e) := by
  have hb2 : backend ∈ [lit "sparse", lit "numpy", lit "cuda", lit "sparse-cuda"] := by
    rcases hb with rfl | rfl | ⟨_, rfl | rfl⟩ <;> simp
  have hb3 : ¬ (backend ∈ [lit "cuda", lit "sparse-cuda"] ∧ cuda = false) := by
    rcases hb with rfl | rfl | ⟨hc, _⟩
    · decide +revert
    · decide +revert
    · simp [hc]
  have hrun : batchShowIf acc load cuda cwd mode backend path disk =
      disk.picklesIf acc load cwd (disk.globIf acc cwd path mode) := by
    unfold batchShowIf
    rw [if_neg (not_not.2 hb2), if_neg hb3]
  rw [hrun]
  have hmem := mem_globIf (acc := acc) hok h mode
  obtain ⟨good, rest, h1, h2, h3⟩ := picklesIf_spec acc load disk cwd (disk.globIf acc cwd path mode)
  have place : ∀ p ∈ disk.globIf acc cwd path mode, ∃ ns f, disk.get (top ++ ns ++ [f]) ≠ none ∧ Shown (ns ++ [f]) ∧
      '.' :: mode <:+ f ∧ Listable acc top ns ∧ p = openedAs path (ns ++ [f]) ∧ disk.at cwd p = some (top ++ ns ++ [f]) ∧
      (splitCh '/' p).getLastD [] = f := by
    intro p hp
    obtain ⟨ns, f, hg, hs, hf, hl, rfl⟩ := (hmem p).1 hp
    obtain ⟨a1, a2, a3⟩ := glob_at hok h hg
    refine ⟨ns, f, hg, hs, hf, hl, rfl, a1, ?_⟩
    rw [← opened_join path a2 a3]
    exact (join_last a3).choose_spec.2
  let loc : Text → List Text := fun p => (disk.at cwd p).getD []
  have hread : ∀ p ∈ disk.globIf acc cwd path mode, (∃ ns f, loc p = top ++ ns ++ [f] ∧ (splitCh '/' p).getLastD [] = f) ∧
      openIf acc load disk cwd p = readIf acc load disk (loc p) := by
    intro p hp
    obtain ⟨ns, f, _, _, _, _, _, hat, hl⟩ := place p hp
    have e : loc p = top ++ ns ++ [f] := by simp only [loc, hat, Option.getD_some]
    refine ⟨⟨ns, f, e, hl⟩, ?_⟩
    rw [openIf, hat, e]
  refine ⟨good.map loc, rest.map loc, ?_, ?_, ?_, ?_⟩
  · rw [← List.map_append, ← h1]
    refine List.Nodup.map_on ?_ ((nodup_glob hok h mode).sublist (globIf_sublist acc disk cwd path mode))
    intro p hp p' hp' e
    obtain ⟨ns, f, _, _, _, _, rfl, hat, _⟩ := place p hp
    obtain ⟨ns', f', _, _, _, _, rfl, hat', _⟩ := place p' hp'
    simp only [loc, hat, hat', Option.getD_some] at e
    obtain ⟨e1, e2⟩ := List.append_inj' e rfl
    rw [List.append_cancel_left e1, e2]
  · intro q
    rw [← List.map_append, ← h1, List.mem_map]
    constructor
    · rintro ⟨p, hp, rfl⟩
      obtain ⟨ns, f, hg, hs, hf, hl, _, hat, _⟩ := place p hp
      have e : loc p = top ++ ns ++ [f] := by simp only [loc, hat, Option.getD_some]
      exact ⟨ns, f, e, by rw [e]; exact hg, hs, hf, hl⟩
    · rintro ⟨ns, f, rfl, hg, hs, hf, hl⟩
      refine ⟨openedAs path (ns ++ [f]), (hmem _).2 ⟨ns, f, hg, hs, hf, hl, rfl⟩, ?_⟩
      simp only [loc, (glob_at hok h hg).1, Option.getD_some]
  · rw [List.forall₂_map_left_iff]
    refine forall₂_imp_mem h2 ?_
    rintro p r hp ⟨hl, hr⟩
    obtain ⟨⟨ns, f, e, hlast⟩, hlook⟩ := hread p (by rw [h1]; simp [hp])
    refine ⟨by rw [hr, hlast, e]; simp, ?_⟩
    rw [← hlook]
    exact hl
  · rcases h3 with ⟨rfl, h3⟩ | ⟨p, rest', e, rfl, h3, h4⟩
    · exact .inl ⟨rfl, h3⟩
    · refine .inr ⟨loc p, rest'.map loc, e, rfl, ?_, h3⟩
      rw [← (hread p (by rw [h1]; simp)).2]
      exact h4

/-- **C101.** If a result that it comes to cannot be opened or read, the script raises. -/
theorem C101_raises (hok : disk.Ok) (hp : Plain path) (h : Leads disk cwd path top) (hmode : mode = lit "pkl" ∨ mode = lit "pickle")
    (hb : backend = lit "sparse" ∨ backend = lit "numpy" ∨ cuda = true ∧ (backend = lit "cuda" ∨ backend = lit "sparse-cuda"))
    (acc : Access) (load : Text → PyM Text) {q : List Text} (hq : Entry.Met acc disk top mode q) {e : Err}
    (he : readIf acc load disk q = .error e) :
    ∃ e', (batchShowIf acc load cuda cwd mode backend path disk).2 = .error e' := by
  obtain ⟨good, rest, _, h2, h3, h4⟩ := C101_shows hok hp h hmode hb acc load
  rcases h4 with ⟨rfl, _⟩ | ⟨_, _, e', _, _, h4⟩
  · exfalso
    have hm := (h2 q).2 hq
    rw [List.append_nil] at hm
    obtain ⟨r, _, hr⟩ := forall₂_mem_left h3 hm
    rw [he] at hr
    cases hr.2
  · exact ⟨e', h4⟩

/-- **C101.** Results in directories that cannot be come to are left out without a word: if all the others can be read, the
script ends without an exception and has shown exactly those others. -/
theorem C101_left_out (hok : disk.Ok) (hp : Plain path) (h : Leads disk cwd path top) (hmode : mode = lit "pkl" ∨ mode = lit "pickle")
    (hb : backend = lit "sparse" ∨ backend = lit "numpy" ∨ cuda = true ∧ (backend = lit "cuda" ∨ backend = lit "sparse-cuda"))
    (acc : Access) (load : Text → PyM Text)
    (hall : ∀ q, Entry.Met acc disk top mode q → ∃ r, readIf acc load disk q = .ok r) :
    (batchShowIf acc load cuda cwd mode backend path disk).2 = .ok () ∧
      ∃ good : List (List Text), good.Nodup ∧ (∀ q, q ∈ good ↔ Entry.Met acc disk top mode q) ∧
        List.Forall₂ (fun q r => q.getLast? = some r.1 ∧ readIf acc load disk q = .ok r.2) good
          (batchShowIf acc load cuda cwd mode backend path disk).1 := by
  obtain ⟨good, rest, h1, h2, h3, h4⟩ := C101_shows hok hp h hmode hb acc load
  rcases h4 with ⟨rfl, h4⟩ | ⟨q, rest', e, rfl, h5, h4⟩
  · rw [List.append_nil] at h1 h2
    exact ⟨h4, good, h1, h2, h3⟩
  · obtain ⟨r, hr⟩ := hall q ((h2 q).1 (by simp))
    rw [h5] at hr
    cases hr

/-- **C101.** Where every access works it is what C94 is about. -/
theorem C101_all (process : Text → Text → Text → PyM Text) (load : Text → PyM Text) (hmode : mode = lit "pkl" ∨ mode = lit "pickle")
    (hb : backend = lit "sparse" ∨ backend = lit "numpy" ∨ cuda = true ∧ (backend = lit "cuda" ∨ backend = lit "sparse-cuda")) :
    (batchShowIf .all load cuda cwd mode backend path disk).1 = batchShown load cwd mode path disk ∧
      (batchShowIf .all load cuda cwd mode backend path disk).2 =
        (batchMain process load cuda cwd mode backend path disk).map fun _ => () := by
  have hb2 : backend ∈ [lit "sparse", lit "numpy", lit "cuda", lit "sparse-cuda"] := by
    rcases hb with rfl | rfl | ⟨_, rfl | rfl⟩ <;> simp
  have hb3 : ¬ (backend ∈ [lit "cuda", lit "sparse-cuda"] ∧ cuda = false) := by
    rcases hb with rfl | rfl | ⟨hc, _⟩
    · decide +revert
    · decide +revert
    · simp [hc]
  have hm1 : mode ∉ [lit "txt", lit "qasm"] := by rcases hmode with rfl | rfl <;> decide
  have hm2 : mode ∈ [lit "pkl", lit "pickle"] := by rcases hmode with rfl | rfl <;> simp
  have key : ∀ files, disk.picklesIf .all load cwd files = disk.pickles load cwd files := by
    intro files
    induction files with
    | nil => rfl
    | cons p files ih =>
      rw [Dir.picklesIf, Dir.pickles, Dir.look, ih]
      cases disk.at cwd p with
      | none => rfl
      | some ns =>
        simp only
        cases disk.get ns with
        | none => rfl
        | some e => cases e <;> rfl
  unfold batchShowIf batchShown batchMain
  rw [if_neg (not_not.2 hb2), if_neg hb3, if_pos hm2, if_neg (not_not.2 hb2), if_neg hb3]
  simp only
  rw [if_neg hm1, if_pos hm2, globIf_all, key]
  refine ⟨rfl, ?_⟩
  cases (Dir.pickles load disk cwd (disk.glob cwd path mode)).2 <;> rfl

/-! ### The hypotheses hold in concrete cases -/

/-- The directory `t/s` cannot be listed. The incomplete result in it does no harm then. -/
def closedAccess : Access := ⟨fun q => q = [lit "t", lit "s"], fun _ => none, fun _ => none, fun _ => none⟩

/-- The file `t/a-numpy.pkl` cannot be opened. -/
def lockedAccess : Access := ⟨fun _ => false, fun _ => none, fun q => if q = [lit "t", lit "a-numpy.pkl"] then some .os else none, fun _ => none⟩

theorem result_leads : Leads resultDisk [] (lit "t") [lit "t"] := ⟨.inr ⟨by decide, by decide +kernel⟩, rfl⟩

example : (batchShowIf closedAccess loadSample false [] (lit "pkl") (lit "numpy") (lit "t") resultDisk).1 = [(lit "a-numpy.pkl", lit "1")] ∧
    (batchShowIf closedAccess loadSample false [] (lit "pkl") (lit "numpy") (lit "t") resultDisk).2.toBool = true := by
  decide +kernel

example : (batchShowIf lockedAccess loadSample false [] (lit "pkl") (lit "numpy") (lit "t") resultDisk).1 = [] ∧
    (batchShowIf lockedAccess loadSample false [] (lit "pkl") (lit "numpy") (lit "t") resultDisk).2.toBool = false := by
  decide +kernel

/-- The hypotheses of `C101_shows` and `C101_raises`. -/
example := C101_shows resultDisk_ok (cuda := false) (by unfold Plain; decide) result_leads (.inl rfl) (.inr (.inl rfl)) lockedAccess loadSample

example := C101_raises resultDisk_ok (cuda := false) (by unfold Plain; decide) result_leads (.inl rfl) (.inr (.inl rfl)) lockedAccess loadSample
  (q := [lit "t", lit "a-numpy.pkl"]) (e := .os)
  ⟨[], lit "a-numpy.pkl", rfl, by decide +kernel, by unfold Shown; decide, ⟨lit "a-numpy", rfl⟩, fun _ _ => rfl⟩ (by decide +kernel)

/-- The hypotheses of `C101_left_out`. -/
example := C101_left_out resultDisk_ok (cuda := false) (by unfold Plain; decide) result_leads (.inl rfl) (.inr (.inl rfl)) closedAccess
  loadSample (by
    rintro q ⟨ns, f, rfl, hg, hs, hf, hl⟩
    have hm := (mem_globIf (acc := closedAccess) resultDisk_ok result_leads (lit "pkl") _).2 ⟨ns, f, hg, hs, hf, hl, rfl⟩
    have e : resultDisk.globIf closedAccess [] (lit "t") (lit "pkl") = [lit "t/a-numpy.pkl"] := by decide +kernel
    rw [e, List.mem_singleton] at hm
    have a1 := (glob_at resultDisk_ok result_leads hg).1
    rw [hm] at a1
    have a2 : resultDisk.at [] (lit "t/a-numpy.pkl") = some [lit "t", lit "a-numpy.pkl"] := by decide +kernel
    rw [a2, Option.some.injEq] at a1
    rw [← a1]
    exact ⟨lit "1", by decide +kernel⟩)

end QuDiet.Tools
