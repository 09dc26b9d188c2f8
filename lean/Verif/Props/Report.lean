import Verif.Report
import Verif.Props.Walk

/-! # C90: what the licence header script prints -/

namespace QuDiet.Tools
open QuDiet.Qasm

/-! ### Relative paths -/

theorem pathText_eq (ns : List Text) : pathText ns = pathOf (lit "/") ns := rfl

/-- An absolute path without detours leads to what it names. -/
theorem resolve_pathOf {sl : Text} (hsl : IsSlashes sl) (cwd : List Text) {ns : List Text} (hn : ∀ n ∈ ns, Name n) :
    resolve cwd (pathOf sl ns) = ns := by
  have hh : (pathOf sl ns).head? = some '/' := by rcases hsl with rfl | rfl <;> rfl
  unfold resolve
  rw [if_pos hh, ← normStep_eq]
  by_cases h : ns = []
  · subst h
    rcases hsl with rfl | rfl <;> decide
  · obtain ⟨es, he, hs⟩ := split_pathOf hsl h fun n hn' => (hn n hn').2.1
    rw [hs, List.foldl_append]
    have : ∀ acc : List Text, es.foldl normStep acc = acc := by
      intro acc
      clear hs
      induction es with
      | nil => rfl
      | cons e es ih =>
        rw [List.foldl_cons, he e (by simp)]
        exact ih fun x hx => he x (by simp [hx])
    rw [this, foldl_names hn, List.nil_append]

theorem names_absPath {sl : Text} (hsl : IsSlashes sl) {cwd : List Text} (hc : ∀ n ∈ cwd, Name n) {ns : List Text}
    (hn : ∀ n ∈ ns, Name n) : namesOf (absPath (pathText cwd) (pathOf sl ns)) = ns := by
  obtain ⟨sl', hsl', h⟩ := absPath_eq hc (pathOf sl ns)
  rw [h, namesOf_pathOf hsl' (resolve_names hc _), resolve_pathOf hsl _ hn]

theorem commonLen_spec (a b : List Text) :
    a.take (commonLen a b) = b.take (commonLen a b) ∧ commonLen a b ≤ a.length ∧ commonLen a b ≤ b.length := by
  induction a generalizing b with
  | nil => cases b <;> simp [commonLen]
  | cons x a ih =>
    cases b with
    | nil => simp [commonLen]
    | cons y b =>
      rw [commonLen]
      split
      · rename_i h
        subst h
        have := ih b
        simp only [List.take_succ_cons, List.length_cons, List.cons.injEq, true_and]
        exact ⟨this.1, by omega, by omega⟩
      · simp

theorem foldl_joinPath {n : Text} {ns : List Text} (h : ∀ m ∈ n :: ns, m ≠ [] ∧ '/' ∉ m) :
    ns.foldl joinPath n = ['/'].intercalate (n :: ns) := by
  induction ns using List.reverseRecOn with
  | nil => simp [List.intercalate]
  | append_singleton ns m ih =>
    have hm := h m (by simp)
    have hns : ∀ k ∈ n :: ns, k ≠ [] ∧ '/' ∉ k := fun k hk => h k (by simp at hk ⊢; tauto)
    rw [List.foldl_append, ih hns, List.foldl_cons, List.foldl_nil, ← List.cons_append, intercalate_snoc (by simp)]
    have hne : ['/'].intercalate (n :: ns) ≠ [] := by
      intro e
      have := split_intercalate (ns := n :: ns) (by simp) fun k hk => (hns k hk).2
      rw [e] at this
      injection this with h1 h2
      exact (hns n (by simp)).1 h1.symm
    have hend : (lit "/").isSuffixOf (['/'].intercalate (n :: ns)) = false := by
      rw [Bool.eq_false_iff]
      intro hs
      obtain ⟨x, hx⟩ := List.isSuffixOf_iff_suffix.1 hs
      have hsp := split_intercalate (ns := n :: ns) (by simp) fun k hk => (hns k hk).2
      rw [← hx, show lit "/" = '/' :: [] from rfl, splitCh_snoc (by simp)] at hsp
      have : ([] : Text) ∈ n :: ns := by rw [← hsp]; simp
      exact (hns _ this).1 rfl
    unfold joinPath
    rw [if_neg (by rw [not_abs hm.2]; simp), if_neg (by simp [hend, hne]), List.append_assoc]
    rfl

/-- The printed path leads, from the working directory, to the file. -/
theorem resolve_relPath {sl : Text} (hsl : IsSlashes sl) {cwd : List Text} (hc : ∀ n ∈ cwd, Name n) {ns : List Text}
    (hn : ∀ n ∈ ns, Name n) : resolve cwd (relPath (pathText cwd) (pathOf sl ns)) = ns := by
  unfold relPath
  have h1 : namesOf (absPath (pathText cwd) (pathText cwd)) = cwd := names_absPath (.inl rfl) hc hc
  rw [h1, names_absPath hsl hc hn]
  obtain ⟨e, hi, hi'⟩ := commonLen_spec cwd ns
  simp only
  generalize commonLen cwd ns = i at *
  have hl : ∀ m ∈ List.replicate (cwd.length - i) (lit "..") ++ ns.drop i, m ≠ [] ∧ '/' ∉ m := by
    intro m hm
    rcases List.mem_append.1 hm with hm | hm
    · rw [(List.mem_replicate.1 hm).2]; decide
    · have := hn m (List.mem_of_mem_drop hm)
      exact ⟨this.1, this.2.1⟩
  have hfold : (List.replicate (cwd.length - i) (lit "..") ++ ns.drop i).foldl normStep cwd = ns := by
    rw [List.foldl_append, foldl_names fun n h => hn n (List.mem_of_mem_drop h)]
    have : ∀ k (acc : List Text), (List.replicate k (lit "..")).foldl normStep acc = acc.take (acc.length - k) := by
      intro k
      induction k with
      | zero => intro acc; simp
      | succ k ih =>
        intro acc
        rw [List.replicate_succ, List.foldl_cons, ih]
        rw [show normStep acc (lit "..") = acc.dropLast from rfl, List.length_dropLast, List.dropLast_eq_take, List.take_take]
        congr 1
        omega
    rw [this, show cwd.length - (cwd.length - i) = i by omega, e, List.take_append_drop]
  split
  · rename_i h
    rw [h] at hfold
    rw [← hfold]
    unfold resolve
    rw [← normStep_eq]
    rfl
  · rename_i n l h
    rw [h] at hfold hl
    rw [foldl_joinPath hl]
    unfold resolve
    rw [← normStep_eq, split_intercalate (by simp) fun m hm => (hl m hm).2, if_neg, hfold]
    intro hh
    have hn := hl n (by simp)
    cases l with
    | nil =>
      simp only [List.intercalate, List.intersperse_singleton, List.flatten_cons, List.flatten_nil, List.append_nil] at hh
      exact hn.2 (List.mem_of_mem_head? hh)
    | cons m l =>
      rw [intercalate_cons (by simp)] at hh
      cases n with
      | nil => exact hn.1 rfl
      | cons c n =>
        simp at hh
        exact hn.2 (by simp [hh])

theorem splitCh_noSep {sep : Char} {t m : Text} (h : m ∈ splitCh sep t) : sep ∉ m := by
  induction t generalizing m with
  | nil => simp [splitCh] at h; simp [h]
  | cons c t ih =>
    rw [splitCh] at h
    split at h
    · rcases List.mem_cons.1 h with rfl | h
      · simp
      · exact ih h
    · rename_i hc
      split at h
      · simp at h; subst h; simpa using Ne.symm hc
      · rename_i l ls hl
        rcases List.mem_cons.1 h with rfl | h
        · have := ih (m := l) (by rw [hl]; simp)
          simp [this, Ne.symm hc]
        · exact ih (by rw [hl]; simp [h])

/-- The printed path does not begin with a slash. -/
theorem relPath_relative (cwd path : Text) : (relPath cwd path).head? ≠ some '/' := by
  unfold relPath
  simp only
  generalize commonLen _ _ = i
  have hl : ∀ m ∈ List.replicate ((namesOf (absPath cwd cwd)).length - i) (lit "..") ++ (namesOf (absPath cwd path)).drop i,
      m ≠ [] ∧ '/' ∉ m := by
    intro m hm
    rcases List.mem_append.1 hm with hm | hm
    · rw [(List.mem_replicate.1 hm).2]; decide
    · have := List.mem_filter.1 (List.mem_of_mem_drop hm)
      exact ⟨by simpa using this.2, splitCh_noSep this.1⟩
  split
  · decide
  · rename_i n l h
    rw [h] at hl
    rw [foldl_joinPath hl]
    intro hh
    have hn := hl n (by simp)
    cases l with
    | nil =>
      simp only [List.intercalate, List.intersperse_singleton, List.flatten_cons, List.flatten_nil, List.append_nil] at hh
      exact hn.2 (List.mem_of_mem_head? hh)
    | cons m l =>
      rw [intercalate_cons (by simp)] at hh
      cases n with
      | nil => exact hn.1 rfl
      | cons c n =>
        simp at hh
        exact hn.2 (by simp [hh])

/-! ### Each source lists a file once -/

theorem pathOf_inj {sl : Text} (hsl : IsSlashes sl) {ns ms : List Text} (h1 : ∀ n ∈ ns, Name n) (h2 : ∀ n ∈ ms, Name n)
    (h : pathOf sl ns = pathOf sl ms) : ns = ms := by
  rw [← namesOf_pathOf hsl h1, h, namesOf_pathOf hsl h2]

theorem nodup_fileNames {d : Dir} (hd : d.Ok) : d.fileNames.Nodup := by
  induction d with
  | nil => exact List.nodup_nil
  | file n t r ih =>
    refine List.nodup_cons.2 ⟨?_, ih hd.2.2⟩
    rw [mem_fileNames hd.2.2, hd.2.1]
    simp
  | dir n s r _ ih => exact ih hd.2.2.2

theorem names_append {ns ms : List Text} (h1 : ∀ n ∈ ns, Name n) (h2 : ∀ n ∈ ms, Name n) : ∀ n ∈ ns ++ ms, Name n := by
  intro n h
  rcases List.mem_append.1 h with h | h
  exacts [h1 n h, h2 n h]

theorem nodup_files {sl : Text} (hsl : IsSlashes sl) {d : Dir} (hd : d.Ok) {ns : List Text} (hn : ∀ n ∈ ns, Name n) :
    (d.fileNames.map (joinPath (pathOf sl ns))).Nodup := by
  refine List.Nodup.map_on ?_ (nodup_fileNames hd)
  intro f hf g hg h
  obtain ⟨t, hf⟩ := (mem_fileNames hd f).1 hf
  obtain ⟨u, hg⟩ := (mem_fileNames hd g).1 hg
  have hf := (find_name hd hf).1
  have hg := (find_name hd hg).1
  rw [joinPath_pathOf hsl hn hf.2.1, joinPath_pathOf hsl hn hg.2.1] at h
  have := pathOf_inj hsl (names_append hn (by simpa using hf)) (names_append hn (by simpa using hg)) h
  simpa using this

theorem files_subs {sl : Text} (hsl : IsSlashes sl) {d : Dir} (hd : d.Ok) {ns : List Text} (hn : ∀ n ∈ ns, Name n) :
    List.Disjoint (d.fileNames.map (joinPath (pathOf sl ns))) (d.walkSubs (pathOf sl ns)) := by
  intro p h1 h2
  obtain ⟨f, hf, rfl⟩ := List.mem_map.1 h1
  obtain ⟨t, hf⟩ := (mem_fileNames hd f).1 hf
  obtain ⟨m, ms, g, u, hg, he⟩ := (mem_walkSubs hsl hd hn _).1 h2
  have hf := (find_name hd hf).1
  rw [joinPath_pathOf hsl hn hf.2.1] at he
  have := pathOf_inj hsl (names_append hn (by simpa using hf)) (names_append hn (get_names hd hg).1) he
  rw [List.append_cancel_left_eq] at this
  have := congrArg List.length this
  simp at this

theorem nodup_walkSubs {sl : Text} (hsl : IsSlashes sl) {d : Dir} (hd : d.Ok) {ns : List Text} (hn : ∀ n ∈ ns, Name n) :
    (d.walkSubs (pathOf sl ns)).Nodup := by
  induction d generalizing ns with
  | nil => exact List.nodup_nil
  | file k u r ih => exact ih hd.2.2 hn
  | dir k s r ihs ihr =>
    have hk := hd.1
    have hn' : ∀ n ∈ ns ++ [k], Name n := names_append hn (by simpa using hk)
    rw [Dir.walkSubs, joinPath_pathOf hsl hn hk.2.1]
    refine List.Nodup.append (List.Nodup.append (nodup_files hsl hd.2.2.1 hn') (ihs hd.2.2.1 hn')
      (files_subs hsl hd.2.2.1 hn')) (ihr hd.2.2.2 hn) ?_
    intro p h1 h2
    obtain ⟨m, ms, g, u, hg, rfl⟩ := (mem_walkSubs hsl hd.2.2.2 hn _).1 h2
    have hmk : m ≠ k := by
      rintro rfl
      rw [get_cons, hd.2.1] at hg
      cases hg
    have key : ∀ l : List Text, (∀ n ∈ l, Name n) → pathOf sl (ns ++ m :: (ms ++ [g])) ≠ pathOf sl (ns ++ [k] ++ l) := by
      intro l hl he
      have := pathOf_inj hsl (names_append hn (get_names hd.2.2.2 hg).1) (names_append hn' hl) he
      rw [List.append_assoc, List.append_cancel_left_eq] at this
      injection this with h _
      exact hmk h
    rcases List.mem_append.1 h1 with h1 | h1
    · obtain ⟨f, hf, he⟩ := List.mem_map.1 h1
      obtain ⟨t, hf⟩ := (mem_fileNames hd.2.2.1 f).1 hf
      have hf := (find_name hd.2.2.1 hf).1
      rw [joinPath_pathOf hsl hn' hf.2.1] at he
      exact key [f] (by simpa using hf) he.symm
    · obtain ⟨m', ms', f, t, hf, he⟩ := (mem_walkSubs hsl hd.2.2.1 hn' _).1 h1
      exact key _ (get_names hd.2.2.1 hf).1 he

theorem nodup_sourceFiles {sl : Text} (hsl : IsSlashes sl) {disk : Dir} (hd : disk.Ok) {ns : List Text} (hn : ∀ n ∈ ns, Name n) :
    (disk.sourceFiles (pathOf sl ns)).Nodup := by
  unfold Dir.sourceFiles
  rw [namesOf_pathOf hsl hn]
  cases h : disk.get ns with
  | none => exact List.nodup_nil
  | some e =>
    cases e with
    | file t => exact List.nodup_singleton _
    | dir d =>
      have := (get_names hd h).2 d rfl
      exact List.Nodup.append (nodup_files hsl this hn) (nodup_walkSubs hsl this hn) (files_subs hsl this hn)

/-- The files of a source, as names. -/
theorem source_names {cwd : List Text} (hc : ∀ n ∈ cwd, Name n) {disk : Dir} (hd : disk.Ok) (a : Text) :
    ((disk.sourceFiles (absPath (pathText cwd) a)).map namesOf).Nodup ∧
    (∀ p ∈ disk.sourceFiles (absPath (pathText cwd) a), resolve cwd (relPath (pathText cwd) p) = namesOf p ∧
      ∃ t, disk.text (namesOf p) = some t) ∧
    ∀ year ns f t, disk.text (ns ++ [f]) = some t →
      ((∃ p ∈ disk.sourceFiles (absPath (pathText cwd) a), namesOf p = ns ++ [f] ∧ disk.needsFix year p = true) ↔
        resolve cwd a <+: ns ++ [f] ∧ InScope ns f ∧ ¬ Headed year t) := by
  obtain ⟨sl, hsl, he⟩ := absPath_eq hc a
  rw [he]
  have hm := mem_sourceFiles hsl hd (resolve_names hc a)
  refine ⟨?_, ?_, ?_⟩
  · refine List.Nodup.map_on ?_ (nodup_sourceFiles hsl hd (resolve_names hc a))
    intro p hp q hq h
    obtain ⟨ms, t, hms, -, rfl⟩ := (hm p).1 hp
    obtain ⟨ks, u, hks, -, rfl⟩ := (hm q).1 hq
    rw [namesOf_pathOf hsl (get_names hd (text_eq.1 hms)).1, namesOf_pathOf hsl (get_names hd (text_eq.1 hks)).1] at h
    rw [h]
  · intro p hp
    obtain ⟨ms, t, hms, -, rfl⟩ := (hm p).1 hp
    have hn := (get_names hd (text_eq.1 hms)).1
    rw [resolve_relPath hsl hc hn, namesOf_pathOf hsl hn]
    exact ⟨rfl, t, hms⟩
  · intro year ns f t ht
    constructor
    · rintro ⟨p, hp, hn, hfix⟩
      obtain ⟨ms, u, hms, hpre, rfl⟩ := (hm p).1 hp
      rw [namesOf_pathOf hsl (get_names hd (text_eq.1 hms)).1] at hn
      subst hn
      exact ⟨hpre, (needsFix_iff hsl hd ht).1 hfix⟩
    · rintro ⟨hpre, h⟩
      exact ⟨pathOf sl (ns ++ [f]), (hm _).2 ⟨_, t, ht, hpre, rfl⟩, namesOf_pathOf hsl (get_names hd (text_eq.1 ht)).1,
        (needsFix_iff hsl hd ht).2 h⟩

/-! ### `check` -/

open Classical in
/-- **C90.** `check` prints one line if nothing is to be reported. Otherwise it prints a heading and then, for each file without
header, as many lines as there are arguments that lead to the file or to a directory above it. Each line ends with a path that
leads, from the working directory, to the file. -/
theorem C90_check (year : Nat) {cwd : List Text} (hc : ∀ n ∈ cwd, Name n) {disk : Dir} (hd : disk.Ok) (prog : Text) (args : List Text) :
    ∃ paths : List Text, headersPrint year (pathText cwd) (prog :: lit "check" :: args) disk = .ok
        (if paths = [] then [lit "All files had license header"]
          else lit "No license header found in:" :: paths.map fun r => lit " - " ++ r) ∧
      (∀ r ∈ paths, r.head? ≠ some '/' ∧ ∃ t, disk.text (resolve cwd r) = some t) ∧
      ∀ ns f t, disk.text (ns ++ [f]) = some t → (paths.map (resolve cwd)).count (ns ++ [f]) =
        if InScope ns f ∧ ¬ Headed year t then (args.filter fun a => resolve cwd a <+: ns ++ [f]).length else 0 := by
  refine ⟨(checkDisk year (args.map (absPath (pathText cwd))) disk).map (relPath (pathText cwd)), ?_, ?_, ?_⟩
  · show Except.ok (checkPrint year (pathText cwd) (args.map (absPath (pathText cwd))) disk) = _
    unfold checkPrint
    cases checkDisk year (args.map (absPath (pathText cwd))) disk with
    | nil => rfl
    | cons p ps => simp
  · intro r hr
    obtain ⟨p, hp, rfl⟩ := List.mem_map.1 hr
    obtain ⟨s, hs, hp⟩ := List.mem_flatMap.1 hp
    obtain ⟨a, ha, rfl⟩ := List.mem_map.1 hs
    have := (source_names hc hd a).2.1 p (List.mem_of_mem_filter hp)
    rw [this.1]
    exact ⟨relPath_relative _ _, this.2⟩
  · intro ns f t ht
    unfold checkDisk
    induction args with
    | nil => simp
    | cons a args ih =>
      obtain ⟨h1, h2, h3⟩ := source_names hc hd a
      rw [List.map_cons, List.flatMap_cons, List.map_append, List.map_append, List.count_append, ih]
      have e : (((disk.sourceFiles (absPath (pathText cwd) a)).filter (disk.needsFix year)).map (relPath (pathText cwd))).map (resolve cwd) =
          ((disk.sourceFiles (absPath (pathText cwd) a)).filter (disk.needsFix year)).map namesOf := by
        rw [List.map_map]
        exact List.map_congr_left fun p hp => (h2 p (List.mem_of_mem_filter hp)).1
      rw [e, List.Nodup.count (h1.sublist (List.filter_sublist.map _))]
      have hmem : ns ++ [f] ∈ ((disk.sourceFiles (absPath (pathText cwd) a)).filter (disk.needsFix year)).map namesOf ↔
          resolve cwd a <+: ns ++ [f] ∧ InScope ns f ∧ ¬ Headed year t := by
        rw [← h3 year ns f t ht]
        simp only [List.mem_map, List.mem_filter]
        exact ⟨fun ⟨p, ⟨hp, hf⟩, hn⟩ => ⟨p, hp, hn, hf⟩, fun ⟨p, hp, hn, hf⟩ => ⟨p, ⟨hp, hf⟩, hn⟩⟩
      by_cases hs : InScope ns f ∧ ¬ Headed year t
      · rw [if_pos hs, if_pos hs, List.filter_cons]
        by_cases hp : resolve cwd a <+: ns ++ [f]
        · rw [if_pos (hmem.2 ⟨hp, hs⟩), if_pos (by simpa using hp), List.length_cons]
          omega
        · rw [if_neg fun h => hp (hmem.1 h).1, if_neg (by simpa using hp)]
          omega
      · rw [if_neg hs, if_neg hs, if_neg fun h => hs (hmem.1 h).2]

/-! ### `fix` -/

/-- The files that are fixed, in order. -/
def fixedFrom (year : Nat) : Dir → List Text → List Text
  | _, [] => []
  | disk, p :: ps => if disk.needsFix year p then p :: fixedFrom year (disk.addHeader year p) ps else fixedFrom year disk ps

theorem foldl_print (year : Nat) (cwd : Text) (ps : List Text) (disk : Dir) (out : List Text) :
    ps.foldl (fixStepPrint year cwd) (disk, out) =
      (ps.foldl (fixStep year) disk, out ++ (fixedFrom year disk ps).map fun p => lit "Fixed " ++ relPath cwd p) := by
  induction ps generalizing disk out with
  | nil => simp [fixedFrom]
  | cons p ps ih =>
    rw [List.foldl_cons, List.foldl_cons, fixedFrom, fixStepPrint, fixStep]
    by_cases h : disk.needsFix year p = true
    · simp only [h, if_true]
      rw [ih]
      simp
    · simp only [h, if_false]
      rw [ih]
      simp

theorem fixPrint_eq (year : Nat) (cwd : Text) (sources : List Text) (disk : Dir) :
    fixPrint year cwd sources disk = (fixDisk year sources disk,
      (fixedFrom year disk (sources.flatMap disk.sourceFiles)).map fun p => lit "Fixed " ++ relPath cwd p) := by
  have key : ∀ (d : Dir) (out : List Text), d.shape = disk.shape →
      sources.foldl (fun st s => (st.1.sourceFiles s).foldl (fixStepPrint year cwd) st) (d, out) =
        (sources.flatMap disk.sourceFiles).foldl (fixStepPrint year cwd) (d, out) := by
    induction sources with
    | nil => intro d out _; rfl
    | cons s ss ih =>
      intro d out h
      rw [List.foldl_cons, List.flatMap_cons, List.foldl_append]
      have : d.sourceFiles s = disk.sourceFiles s := by rw [← sourceFiles_shape, h, sourceFiles_shape]
      simp only [this]
      rw [foldl_print]
      exact ih _ _ (by rw [shape_fold, h])
  unfold fixPrint
  rw [key disk [] rfl, foldl_print, fixDisk_eq, List.nil_append]

theorem fixedFrom_mem {year : Nat} {ps : List Text} {disk : Dir} {p : Text} (h : p ∈ fixedFrom year disk ps) : p ∈ ps := by
  induction ps generalizing disk with
  | nil => exact h
  | cons q ps ih =>
    rw [fixedFrom] at h
    split at h
    · rcases List.mem_cons.1 h with rfl | h
      · simp
      · exact List.mem_cons_of_mem _ (ih h)
    · exact List.mem_cons_of_mem _ (ih h)

open Classical in
theorem count_fixedFrom (year : Nat) (ps : List Text) (disk : Dir) (ns : List Text) :
    ((fixedFrom year disk ps).map namesOf).count ns =
      if ∃ p ∈ ps, namesOf p = ns ∧ disk.needsFix year p = true then 1 else 0 := by
  induction ps generalizing disk with
  | nil => simp [fixedFrom]
  | cons q ps ih =>
    rw [fixedFrom]
    have hstep := text_fixStep year disk q ns
    by_cases hq : disk.needsFix year q = true
    · rw [fixStep, if_pos hq] at hstep
      rw [if_pos hq, List.map_cons, List.count_cons, ih]
      by_cases hn : namesOf q = ns
      · rw [if_pos (c := ∃ p ∈ q :: ps, _) ⟨q, by simp, hn, hq⟩, if_neg, if_pos (by simpa using hn)]
        rintro ⟨p, hp, hpn, hfix⟩
        rw [needsFix_text, hpn, hstep, if_pos ⟨hn.symm, hq⟩] at hfix
        cases ht : disk.text ns with
        | none => rw [ht] at hfix; simp at hfix
        | some t =>
          rw [ht] at hfix
          simp [needsFix_addHeader] at hfix
      · rw [if_neg (c := (namesOf q == ns) = true) (by simpa using hn), Nat.add_zero]
        have : (∃ p ∈ ps, namesOf p = ns ∧ (disk.addHeader year q).needsFix year p = true) ↔
            ∃ p ∈ q :: ps, namesOf p = ns ∧ disk.needsFix year p = true := by
          have key : ∀ p, namesOf p = ns → (disk.addHeader year q).needsFix year p = disk.needsFix year p := by
            intro p hp
            rw [needsFix_text, needsFix_text, hp, hstep, if_neg fun h => hn h.1.symm]
          constructor
          · rintro ⟨p, hp, h1, h2⟩
            exact ⟨p, by simp [hp], h1, by rw [← key p h1]; exact h2⟩
          · rintro ⟨p, hp, h1, h2⟩
            rcases List.mem_cons.1 hp with rfl | hp
            · exact absurd h1 hn
            · exact ⟨p, hp, h1, by rw [key p h1]; exact h2⟩
        simp only [this]
    · rw [if_neg hq, ih]
      have : (∃ p ∈ ps, namesOf p = ns ∧ disk.needsFix year p = true) ↔
          ∃ p ∈ q :: ps, namesOf p = ns ∧ disk.needsFix year p = true := by
        constructor
        · rintro ⟨p, hp, h⟩
          exact ⟨p, by simp [hp], h⟩
        · rintro ⟨p, hp, h⟩
          rcases List.mem_cons.1 hp with rfl | hp
          · exact absurd h.2 hq
          · exact ⟨p, hp, h⟩
      simp only [this]

open Classical in
/-- **C90.** `fix` prints one line for each file that it changes, however many arguments lead to it, and no others. Each line ends
with a relative path that leads, from the working directory, to the file. -/
theorem C90_fix (year : Nat) {cwd : List Text} (hc : ∀ n ∈ cwd, Name n) {disk : Dir} (hd : disk.Ok) (prog : Text) (args : List Text) :
    ∃ paths : List Text, headersPrint year (pathText cwd) (prog :: lit "fix" :: args) disk = .ok
        (paths.map fun r => lit "Fixed " ++ r) ∧
      (∀ r ∈ paths, r.head? ≠ some '/' ∧ ∃ t, disk.text (resolve cwd r) = some t) ∧
      ∀ ns f t, disk.text (ns ++ [f]) = some t → (paths.map (resolve cwd)).count (ns ++ [f]) =
        if Covered cwd args ns f ∧ InScope ns f ∧ ¬ Headed year t then 1 else 0 := by
  have hres : ∀ p ∈ fixedFrom year disk ((args.map (absPath (pathText cwd))).flatMap disk.sourceFiles),
      resolve cwd (relPath (pathText cwd) p) = namesOf p ∧ ∃ t, disk.text (namesOf p) = some t := by
    intro p hp
    obtain ⟨s, hs, hp⟩ := List.mem_flatMap.1 (fixedFrom_mem hp)
    obtain ⟨a, ha, rfl⟩ := List.mem_map.1 hs
    exact (source_names hc hd a).2.1 p hp
  refine ⟨(fixedFrom year disk ((args.map (absPath (pathText cwd))).flatMap disk.sourceFiles)).map (relPath (pathText cwd)), ?_, ?_, ?_⟩
  · show Except.ok (fixPrint year (pathText cwd) (args.map (absPath (pathText cwd))) disk).2 = _
    rw [fixPrint_eq, List.map_map]
    rfl
  · intro r hr
    obtain ⟨p, hp, rfl⟩ := List.mem_map.1 hr
    rw [(hres p hp).1]
    exact ⟨relPath_relative _ _, (hres p hp).2⟩
  · intro ns f t ht
    rw [List.map_map, List.map_congr_left (f := resolve cwd ∘ relPath (pathText cwd)) (g := namesOf) fun p hp => (hres p hp).1, count_fixedFrom]
    have : (∃ p ∈ (args.map (absPath (pathText cwd))).flatMap disk.sourceFiles,
        namesOf p = ns ++ [f] ∧ disk.needsFix year p = true) ↔ Covered cwd args ns f ∧ InScope ns f ∧ ¬ Headed year t := by
      constructor
      · rintro ⟨p, hp, h⟩
        obtain ⟨s, hs, hp⟩ := List.mem_flatMap.1 hp
        obtain ⟨a, ha, rfl⟩ := List.mem_map.1 hs
        obtain ⟨h1, h2⟩ := ((source_names hc hd a).2.2 year ns f t ht).1 ⟨p, hp, h⟩
        exact ⟨⟨a, ha, h1⟩, h2⟩
      · rintro ⟨⟨a, ha, h1⟩, h2⟩
        obtain ⟨p, hp, h⟩ := ((source_names hc hd a).2.2 year ns f t ht).2 ⟨h1, h2⟩
        exact ⟨p, List.mem_flatMap.2 ⟨_, List.mem_map.2 ⟨a, ha, rfl⟩, hp⟩, h⟩
    simp only [this]

/-- The printing and the changes are those of one loop: the disk is the one of C84. -/
theorem C90_same_disk (year : Nat) (cwd : Text) (sources : List Text) (disk : Dir) :
    (fixPrint year cwd sources disk).1 = fixDisk year sources disk := by
  rw [fixPrint_eq]

/-- Run in `/home/q/lib`, with the directory above it and one of its files: `b.py` has two lines. -/
example : headersPrint 2022 (lit "/home/q/lib") [lit "s", lit "check", lit "..", lit "b.py"] demoDisk =
    .ok [lit "No license header found in:", lit " - ../a.py", lit " - b.py", lit " - b.py"] := by
  decide +kernel

example : headersPrint 2022 (lit "/home/q/lib") [lit "s", lit "fix", lit "..", lit "b.py"] demoDisk =
    .ok [lit "Fixed ../a.py", lit "Fixed b.py"] := by
  decide +kernel

end QuDiet.Tools
