import Verif.Access
import Verif.Props.Walk

/-! # C98: the licence header script when files cannot be read or written -/

namespace QuDiet.Tools
open QuDiet.Qasm

/-! ### Specification -/

/-- The file `f` in the directory `ns` is named by an argument, or lies in or below a directory that is, and all directories from
that one to the file can be listed. -/
def Reached (acc : Access) (cwd : List Text) (args : List Text) (ns : List Text) (f : Text) : Prop :=
  ∃ a ∈ args, resolve cwd a <+: ns ++ [f] ∧ ∀ ms, resolve cwd a <+: ms → ms <+: ns → acc.closed ms = false

/-- The error that stops `fix` at a file that holds `t`. -/
def StopsFix (year : Nat) (acc : Access) (path : List Text) (t : Text) (e : Err) : Prop :=
  acc.peek path = some e ∨
    acc.peek path = none ∧ ¬ Headed year t ∧ (acc.load path = some e ∨ acc.load path = none ∧ acc.save path = some e)

/-! ### Directories that cannot be listed -/

def Entry.seen (acc : Access) (here : List Text) : Entry → Entry
  | .file t => .file t
  | .dir s => .dir (if acc.closed here then .nil else s.seen acc here)

theorem find_seen (acc : Access) (here : List Text) (d : Dir) (n : Text) :
    (d.seen acc here).find n = (d.find n).map (Entry.seen acc (here ++ [n])) := by
  induction d with
  | nil => rfl
  | file m t r ih =>
    rw [Dir.seen, Dir.find, Dir.find]
    split
    · rfl
    · exact ih
  | dir m s r ihs ihr =>
    rw [Dir.seen, Dir.find, Dir.find]
    split
    · rename_i h; subst h; rfl
    · exact ihr

theorem seen_ok (acc : Access) (here : List Text) (d : Dir) (h : d.Ok) : (d.seen acc here).Ok := by
  induction d generalizing here with
  | nil => exact h
  | file m t r ih => exact ⟨h.1, by rw [find_seen, h.2.1]; rfl, ih _ h.2.2⟩
  | dir m s r ihs ihr =>
    refine ⟨h.1, by rw [find_seen, h.2.1]; rfl, ?_, ihr _ h.2.2.2⟩
    split
    · trivial
    · exact ihs _ h.2.2.1

/-- A file is seen if all directories above it, below `here`, can be listed. -/
theorem get_seen (acc : Access) (here : List Text) (d : Dir) (ms : List Text) (f t : Text) :
    (d.seen acc here).get (ms ++ [f]) = some (.file t) ↔
      d.get (ms ++ [f]) = some (.file t) ∧ ∀ xs, xs ≠ [] → xs <+: ms → acc.closed (here ++ xs) = false := by
  induction ms generalizing d here with
  | nil =>
    have : ∀ xs : List Text, xs ≠ [] → xs <+: [] → acc.closed (here ++ xs) = false := by
      intro xs h1 h2
      exact absurd (List.prefix_nil.1 h2) h1
    rw [List.nil_append, get_cons, get_cons, find_seen]
    cases d.find f with
    | none => simp
    | some e =>
      cases e with
      | file u =>
        simp only [Option.map_some, Entry.seen]
        exact ⟨fun h => ⟨h, this⟩, fun h => h.1⟩
      | dir s =>
        simp only [Option.map_some, Entry.seen]
        cases s <;> split <;> simp [Dir.get]
  | cons m ms ih =>
    rw [List.cons_append, get_cons, get_cons, find_seen]
    cases hf : d.find m with
    | none => simp
    | some e =>
      cases e with
      | file u => simp [Entry.seen]
      | dir s =>
        simp only [Option.map_some, Entry.seen]
        by_cases hc : acc.closed (here ++ [m]) = true
        · rw [if_pos hc]
          constructor
          · intro h
            cases ms <;> simp [Dir.get, Dir.find] at h
          · rintro ⟨-, h⟩
            have := h [m] (by simp) (by simp)
            rw [hc] at this
            cases this
        · rw [if_neg hc, ih]
          refine and_congr_right fun _ => ⟨fun h xs h1 h2 => ?_, fun h xs h1 h2 => ?_⟩
          · cases xs with
            | nil => exact absurd rfl h1
            | cons x xs =>
              obtain ⟨rfl, h3⟩ := List.cons_prefix_cons.1 h2
              cases xs with
              | nil => simpa using hc
              | cons y ys => simpa using h (y :: ys) (by simp) h3
          · simpa using h (m :: xs) (by simp) (by simpa using h2)

theorem mem_sourceFilesIf {acc : Access} {sl : Text} (hsl : IsSlashes sl) {disk : Dir} (hd : disk.Ok) {ns : List Text}
    (hn : ∀ n ∈ ns, Name n) (p : Text) :
    p ∈ disk.sourceFilesIf acc (pathOf sl ns) ↔ ∃ ms f t, disk.text (ms ++ [f]) = some t ∧ ns <+: ms ++ [f] ∧
      (∀ xs, ns <+: xs → xs <+: ms → acc.closed xs = false) ∧ p = pathOf sl (ms ++ [f]) := by
  unfold Dir.sourceFilesIf
  rw [namesOf_pathOf hsl hn]
  cases h : disk.get ns with
  | none =>
    simp only [List.not_mem_nil, false_iff]
    rintro ⟨ms, f, t, ht, ⟨x, hx⟩, -, -⟩
    rw [text_eq, ← hx] at ht
    cases x with
    | nil => rw [List.append_nil, h] at ht; cases ht
    | cons y x => rw [get_append _ _ _ (by simp), h] at ht; cases ht
  | some e =>
    cases e with
    | file t =>
      simp only [List.mem_singleton]
      constructor
      · rintro rfl
        have hne : ns ≠ [] := by
          rintro rfl
          cases h
        have e := List.dropLast_append_getLast hne
        refine ⟨ns.dropLast, ns.getLast hne, t, by rw [e]; exact text_eq.2 h, by rw [e], fun xs h1 h2 => ?_, by rw [e]⟩
        have h1 := h1.length_le
        have h2 := h2.length_le
        rw [List.length_dropLast] at h2
        have := List.length_pos_iff.2 hne
        omega
      · rintro ⟨ms, f, t, ht, ⟨x, hx⟩, -, rfl⟩
        rw [text_eq, ← hx] at ht
        cases x with
        | nil => rw [← hx, List.append_nil]
        | cons y x => rw [get_append _ _ _ (by simp), h] at ht; cases ht
    | dir s =>
      simp only
      have hs := (get_names hd h).2 s rfl
      by_cases hc : acc.closed ns = true
      · rw [if_pos hc]
        simp only [Dir.walk, Dir.fileNames, Dir.walkSubs, List.map_nil, List.append_nil, List.not_mem_nil, false_iff]
        rintro ⟨ms, f, t, ht, hp, hx, -⟩
        rcases (List.prefix_concat_iff).1 hp with e | e
        · rw [text_eq, ← e, h] at ht
          cases ht
        · have := hx ns (List.prefix_refl _) e
          rw [hc] at this
          cases this
      · rw [if_neg hc, mem_walk hsl (seen_ok _ _ _ hs) hn]
        constructor
        · rintro ⟨ms, f, t, h1, rfl⟩
          obtain ⟨h1, h2⟩ := (get_seen ..).1 h1
          refine ⟨ns ++ ms, f, t, ?_, by rw [List.append_assoc]; exact List.prefix_append _ _, ?_, by rw [List.append_assoc]⟩
          · rw [text_eq, List.append_assoc, get_append _ _ _ (by simp), h]
            exact h1
          · rintro xs ⟨ys, rfl⟩ hy
            by_cases hy0 : ys = []
            · subst hy0
              simpa using hc
            · exact h2 ys hy0 ((List.prefix_append_right_inj ns).1 hy)
        · rintro ⟨ms, f, t, ht, hp, hx, rfl⟩
          rcases (List.prefix_concat_iff).1 hp with e | e
          · rw [text_eq, ← e, h] at ht
            cases ht
          · obtain ⟨ys, rfl⟩ := e
            rw [text_eq, List.append_assoc, get_append _ _ _ (by simp), h] at ht
            refine ⟨ys, f, t, (get_seen ..).2 ⟨ht, fun xs _ h2 => ?_⟩, by rw [List.append_assoc]⟩
            exact hx _ (List.prefix_append _ _) ((List.prefix_append_right_inj ns).2 h2)


theorem seen_shape (acc : Access) (here : List Text) (d : Dir) : d.shape.seen acc here = (d.seen acc here).shape := by
  induction d generalizing here with
  | nil => rfl
  | file m t r ih => rw [Dir.shape, Dir.seen, Dir.seen, Dir.shape, ih]
  | dir m s r ihs ihr =>
    rw [Dir.shape, Dir.seen, Dir.seen, Dir.shape, ihr]
    split
    · rfl
    · rw [ihs]

theorem sourceFilesIf_shape (acc : Access) (d : Dir) (s : Text) : d.shape.sourceFilesIf acc s = d.sourceFilesIf acc s := by
  unfold Dir.sourceFilesIf
  rw [get_shape]
  cases d.get (namesOf s) with
  | none => rfl
  | some e =>
    cases e with
    | file t => rfl
    | dir x =>
      simp only [Option.map_some, Entry.shape, seen_shape]
      split
      · rfl
      · rw [Dir.walk, Dir.walk, fileNames_shape, walkSubs_shape]

/-! ### One file after the other -/

/-- The path stops `fix`. -/
def BadPath (year : Nat) (acc : Access) (d : Dir) (p : Text) (e : Err) : Prop :=
  pathChecked p = true ∧ ∃ t, d.text (namesOf p) = some t ∧ (acc.peek (namesOf p) = some e ∨
    acc.peek (namesOf p) = none ∧ needsFixLines (header year) (fileLines t) = true ∧
      (acc.load (namesOf p) = some e ∨ acc.load (namesOf p) = none ∧ acc.save (namesOf p) = some e))

theorem needsFixIf_text (year : Nat) (acc : Access) (d : Dir) (p : Text) :
    d.needsFixIf year acc p = if pathChecked p = true then match d.text (namesOf p) with
      | some t => match acc.peek (namesOf p) with
        | some e => .error e
        | none => .ok (needsFixLines (header year) (fileLines t))
      | none => .ok false
    else .ok false := by
  unfold Dir.needsFixIf Dir.text
  split
  · cases d.get (namesOf p) with
    | none => rfl
    | some e => cases e <;> rfl
  · rfl

theorem fixFilesIf_cons (year : Nat) (acc : Access) (p : Text) (ps : List Text) (d : Dir) :
    (∃ e, BadPath year acc d p e ∧ fixFilesIf year acc (p :: ps) d = (d, .error e)) ∨
      (∀ e, ¬ BadPath year acc d p e) ∧ fixFilesIf year acc (p :: ps) d = fixFilesIf year acc ps (fixStep year d p) := by
  rw [fixFilesIf, needsFixIf_text]
  unfold fixStep
  rw [needsFix_text]
  by_cases hp : pathChecked p = true
  · rw [if_pos hp, hp, Bool.true_and]
    cases ht : d.text (namesOf p) with
    | none =>
      right
      refine ⟨?_, rfl⟩
      rintro e ⟨-, t, h, -⟩
      rw [ht] at h
      cases h
    | some t =>
      simp only
      cases hk : acc.peek (namesOf p) with
      | some e => exact .inl ⟨e, ⟨hp, t, ht, .inl hk⟩, rfl⟩
      | none =>
        simp only
        rcases Bool.eq_false_or_eq_true (needsFixLines (header year) (fileLines t)) with hf | hf
        case inr =>
          right
          refine ⟨?_, by simp [hf]⟩
          rintro e ⟨-, t', h, h' | ⟨-, h', -⟩⟩
          · rw [hk] at h'; cases h'
          · rw [ht] at h
            cases h
            rw [hf] at h'
            cases h'
        case inl =>
          simp only [Dir.addHeaderIf, hf]
          cases hl : acc.load (namesOf p) with
          | some e => exact .inl ⟨e, ⟨hp, t, ht, .inr ⟨hk, hf, .inl hl⟩⟩, rfl⟩
          | none =>
            simp only
            cases hs : acc.save (namesOf p) with
            | some e => exact .inl ⟨e, ⟨hp, t, ht, .inr ⟨hk, hf, .inr ⟨hl, hs⟩⟩⟩, rfl⟩
            | none =>
              right
              refine ⟨?_, by simp⟩
              rintro e ⟨-, t', h, h' | ⟨-, -, h' | ⟨-, h'⟩⟩⟩
              · rw [hk] at h'; cases h'
              · rw [hl] at h'; cases h'
              · rw [hs] at h'; cases h'
  · rw [if_neg hp]
    right
    refine ⟨fun e h => hp h.1, ?_⟩
    simp [hp]

theorem badPath_step {year : Nat} {acc : Access} {d : Dir} {p : Text} (h : ∀ e, ¬ BadPath year acc d p e) (q : Text) (e : Err) :
    BadPath year acc (fixStep year d p) q e ↔ BadPath year acc d q e := by
  unfold BadPath
  rw [text_fixStep]
  by_cases hq : namesOf q = namesOf p ∧ d.needsFix year p = true
  · rw [if_pos hq]
    obtain ⟨h1, h2⟩ := hq
    rw [needsFix_text, Bool.and_eq_true] at h2
    obtain ⟨hc, h2⟩ := h2
    cases ht : d.text (namesOf p) with
    | none => rw [ht] at h2; cases h2
    | some t =>
      rw [ht] at h2
      have hk : acc.peek (namesOf p) = none := by
        cases hk : acc.peek (namesOf p) with
        | none => rfl
        | some e => exact absurd ⟨hc, t, ht, .inl hk⟩ (h e)
      have hl : acc.load (namesOf p) = none := by
        cases hl : acc.load (namesOf p) with
        | none => rfl
        | some e => exact absurd ⟨hc, t, ht, .inr ⟨hk, h2, .inl hl⟩⟩ (h e)
      have hs : acc.save (namesOf p) = none := by
        cases hs : acc.save (namesOf p) with
        | none => rfl
        | some e => exact absurd ⟨hc, t, ht, .inr ⟨hk, h2, .inr ⟨hl, hs⟩⟩⟩ (h e)
      rw [h1, hk, hl, hs]
      simp
  · rw [if_neg hq]

theorem fixFilesIf_spec (year : Nat) (acc : Access) (ps : List Text) (d : Dir) :
    ∃ qs, qs <+: ps ∧ (fixFilesIf year acc ps d).1 = qs.foldl (fixStep year) d ∧ (∀ p ∈ qs, ∀ e, ¬ BadPath year acc d p e) ∧
      ((fixFilesIf year acc ps d).2 = .ok () ∧ qs = ps ∨
        ∃ p ∈ ps, ∃ e, BadPath year acc d p e ∧ (fixFilesIf year acc ps d).2 = .error e) := by
  induction ps generalizing d with
  | nil => exact ⟨[], List.prefix_refl _, rfl, by simp, .inl ⟨rfl, rfl⟩⟩
  | cons p ps ih =>
    rcases fixFilesIf_cons year acc p ps d with ⟨e, hb, he⟩ | ⟨hb, he⟩
    · rw [he]
      exact ⟨[], List.nil_prefix, rfl, by simp, .inr ⟨p, by simp, e, hb, rfl⟩⟩
    · rw [he]
      obtain ⟨qs, h1, h2, h3, h4⟩ := ih (fixStep year d p)
      refine ⟨p :: qs, List.cons_prefix_cons.2 ⟨rfl, h1⟩, h2, ?_, ?_⟩
      · intro q hq
        rcases List.mem_cons.1 hq with rfl | hq
        · exact hb
        · exact fun e h => h3 q hq e ((badPath_step hb q e).2 h)
      · rcases h4 with ⟨h4, rfl⟩ | ⟨q, hq, e, h4, h5⟩
        · exact .inl ⟨h4, rfl⟩
        · exact .inr ⟨q, by simp [hq], e, (badPath_step hb q e).1 h4, h5⟩

theorem badPath_unique {year : Nat} {acc : Access} {d : Dir} {p : Text} {e e' : Err} (h : BadPath year acc d p e)
    (h' : BadPath year acc d p e') : e = e' := by
  obtain ⟨-, t, -, h⟩ := h
  obtain ⟨-, t', -, h'⟩ := h'
  rcases h with h | ⟨h, -, h2 | ⟨h2, h3⟩⟩ <;> rcases h' with h' | ⟨h', -, h2' | ⟨h2', h3'⟩⟩ <;> simp_all

theorem fixFilesIf_append (year : Nat) (acc : Access) (ps qs : List Text) (d : Dir) :
    fixFilesIf year acc (ps ++ qs) d = match fixFilesIf year acc ps d with
      | (d', .error e) => (d', .error e)
      | (d', .ok ()) => fixFilesIf year acc qs d' := by
  induction ps generalizing d with
  | nil => rfl
  | cons p ps ih =>
    rcases fixFilesIf_cons year acc p ps d with ⟨e, hb, he⟩ | ⟨hb, he⟩
    · rcases fixFilesIf_cons year acc p (ps ++ qs) d with ⟨e', hb', he'⟩ | ⟨hb', he'⟩
      · rw [he, List.cons_append, he', badPath_unique hb hb']
      · exact absurd hb (hb' e)
    · rcases fixFilesIf_cons year acc p (ps ++ qs) d with ⟨e', hb', he'⟩ | ⟨hb', he'⟩
      · exact absurd hb' (hb e')
      · rw [List.cons_append, he', he, ih]

theorem fixDiskIf_eq (year : Nat) (acc : Access) (sources : List Text) (disk : Dir) :
    fixDiskIf year acc sources disk = fixFilesIf year acc (sources.flatMap (disk.sourceFilesIf acc)) disk := by
  have key : ∀ d : Dir, d.shape = disk.shape →
      fixDiskIf year acc sources d = fixFilesIf year acc (sources.flatMap (disk.sourceFilesIf acc)) d := by
    induction sources with
    | nil => intro d _; rfl
    | cons s ss ih =>
      intro d h
      rw [fixDiskIf, List.flatMap_cons, fixFilesIf_append]
      have : d.sourceFilesIf acc s = disk.sourceFilesIf acc s := by rw [← sourceFilesIf_shape, h, sourceFilesIf_shape]
      rw [this]
      obtain ⟨qs, -, h2, -, -⟩ := fixFilesIf_spec year acc (disk.sourceFilesIf acc s) d
      cases hr : fixFilesIf year acc (disk.sourceFilesIf acc s) d with
      | mk d' r =>
        rw [hr] at h2
        cases r with
        | error e => rfl
        | ok u => exact ih _ (by simp only at h2; rw [h2, shape_fold, h])
  exact key disk rfl

theorem checkFilesIf_spec (year : Nat) (acc : Access) (disk : Dir) (ps : List Text) :
    (∃ p ∈ ps, ∃ t e, pathChecked p = true ∧ disk.text (namesOf p) = some t ∧ acc.peek (namesOf p) = some e ∧
      checkFilesIf year acc disk ps = .error e) ∨
    (∀ p ∈ ps, ∀ t, pathChecked p = true → disk.text (namesOf p) = some t → acc.peek (namesOf p) = none) ∧
      checkFilesIf year acc disk ps = .ok (ps.filter (disk.needsFix year)) := by
  induction ps with
  | nil => exact .inr ⟨by simp, rfl⟩
  | cons p ps ih =>
    have key : (∃ t e, pathChecked p = true ∧ disk.text (namesOf p) = some t ∧ acc.peek (namesOf p) = some e ∧
        disk.needsFixIf year acc p = .error e) ∨
        (∀ t, pathChecked p = true → disk.text (namesOf p) = some t → acc.peek (namesOf p) = none) ∧
          disk.needsFixIf year acc p = .ok (disk.needsFix year p) := by
      rw [needsFixIf_text, needsFix_text]
      by_cases hp : pathChecked p = true
      · rw [if_pos hp, hp, Bool.true_and]
        cases ht : disk.text (namesOf p) with
        | none => exact .inr ⟨by simp, rfl⟩
        | some t =>
          cases hk : acc.peek (namesOf p) with
          | some e => exact .inl ⟨t, e, rfl, rfl, rfl, rfl⟩
          | none => exact .inr ⟨fun _ _ _ => rfl, rfl⟩
      · rw [if_neg hp]
        exact .inr ⟨fun _ h => absurd h hp, by simp [hp]⟩
    rw [checkFilesIf]
    rcases key with ⟨t, e, h1, h2, h3, h4⟩ | ⟨h1, h2⟩
    · exact .inl ⟨p, by simp, t, e, h1, h2, h3, by rw [h4]; rfl⟩
    · rw [h2]
      rcases ih with ⟨q, hq, t, e, h3, h4, h5, h6⟩ | ⟨h3, h4⟩
      · exact .inl ⟨q, by simp [hq], t, e, h3, h4, h5, by rw [h6]; rfl⟩
      · refine .inr ⟨?_, ?_⟩
        · intro q hq
          rcases List.mem_cons.1 hq with rfl | hq
          exacts [h1, h3 q hq]
        · rw [h4, List.filter_cons]
          rfl

/-! ### The files that the arguments lead to -/

section
variable {year : Nat} {acc : Access} {cwd : List Text} {disk : Dir}

/-- The paths that are looked at. -/
def looked (acc : Access) (cwd : List Text) (disk : Dir) (args : List Text) : List Text :=
  (args.map (absPath (pathText cwd))).flatMap (disk.sourceFilesIf acc)

theorem of_looked (hc : ∀ n ∈ cwd, Name n) (hd : disk.Ok) {args : List Text} {p : Text} (h : p ∈ looked acc cwd disk args) :
    ∃ ns f t, disk.text (ns ++ [f]) = some t ∧ Reached acc cwd args ns f ∧ namesOf p = ns ++ [f] ∧
      (pathChecked p = true ↔ InScope ns f) := by
  obtain ⟨s, hs, hp⟩ := List.mem_flatMap.1 h
  obtain ⟨a, ha, rfl⟩ := List.mem_map.1 hs
  obtain ⟨sl, hsl, he⟩ := absPath_eq hc a
  rw [he, mem_sourceFilesIf hsl hd (resolve_names hc a)] at hp
  obtain ⟨ns, f, t, ht, hpre, hcl, rfl⟩ := hp
  have hn := (get_names hd (text_eq.1 ht)).1
  exact ⟨ns, f, t, ht, ⟨a, ha, hpre, hcl⟩, namesOf_pathOf hsl hn,
    pathChecked_pathOf hsl (fun n h => hn n (by simp [h])) (hn f (by simp))⟩

theorem to_looked (hc : ∀ n ∈ cwd, Name n) (hd : disk.Ok) {args : List Text} {ns : List Text} {f t : Text}
    (ht : disk.text (ns ++ [f]) = some t) (h : Reached acc cwd args ns f) :
    ∃ p ∈ looked acc cwd disk args, namesOf p = ns ++ [f] ∧ (pathChecked p = true ↔ InScope ns f) := by
  obtain ⟨a, ha, hpre, hcl⟩ := h
  obtain ⟨sl, hsl, he⟩ := absPath_eq hc a
  have hn := (get_names hd (text_eq.1 ht)).1
  refine ⟨pathOf sl (ns ++ [f]), List.mem_flatMap.2 ⟨_, List.mem_map.2 ⟨a, ha, rfl⟩, ?_⟩, namesOf_pathOf hsl hn,
    pathChecked_pathOf hsl (fun n h => hn n (by simp [h])) (hn f (by simp))⟩
  rw [he, mem_sourceFilesIf hsl hd (resolve_names hc a)]
  exact ⟨ns, f, t, ht, hpre, hcl, rfl⟩

theorem badPath_iff {p : Text} {ns : List Text} {f t : Text} (ht : disk.text (ns ++ [f]) = some t) (hn : namesOf p = ns ++ [f])
    (hp : pathChecked p = true ↔ InScope ns f) (e : Err) :
    BadPath year acc disk p e ↔ InScope ns f ∧ StopsFix year acc (ns ++ [f]) t e := by
  unfold BadPath StopsFix
  rw [hn, hp, ht, ← headed_iff, Bool.not_eq_false]
  refine and_congr_right fun _ => ⟨?_, fun h => ⟨t, rfl, h⟩⟩
  rintro ⟨t', h, h'⟩
  cases h
  exact h'

/-- **C98.** `check` never changes a file. It raises exactly if a Python file that it comes to (one that an argument names, or that
lies below a directory that an argument names, with no hidden directory in its path and no directory in between that cannot
be listed) cannot be read, and then raises what reading one such file raises. Otherwise its exit status is 0 exactly if
all files that it comes to have the header. -/
theorem C98_check (year : Nat) (acc : Access) (hc : ∀ n ∈ cwd, Name n) (hd : disk.Ok) (prog : Text) (args : List Text) :
    (headersMainIf year acc (pathText cwd) (prog :: lit "check" :: args) disk).1 = disk ∧
    ((∃ e, (headersMainIf year acc (pathText cwd) (prog :: lit "check" :: args) disk).2 = .error e) ↔
      ∃ ns f t e, disk.text (ns ++ [f]) = some t ∧ Reached acc cwd args ns f ∧ InScope ns f ∧ acc.peek (ns ++ [f]) = some e) ∧
    (∀ e, (headersMainIf year acc (pathText cwd) (prog :: lit "check" :: args) disk).2 = .error e →
      ∃ ns f t, disk.text (ns ++ [f]) = some t ∧ Reached acc cwd args ns f ∧ InScope ns f ∧ acc.peek (ns ++ [f]) = some e) ∧
    ∀ status, (headersMainIf year acc (pathText cwd) (prog :: lit "check" :: args) disk).2 = .ok status →
      (status = 0 ∨ status = 1) ∧
      (status = 0 ↔ ∀ ns f t, disk.text (ns ++ [f]) = some t → Reached acc cwd args ns f → InScope ns f → Headed year t) := by
  have hm : headersMainIf year acc (pathText cwd) (prog :: lit "check" :: args) disk =
      (disk, (checkFilesIf year acc disk (looked acc cwd disk args)).map fun qs => if qs = [] then 0 else 1) := by
    unfold headersMainIf
    simp only
    rw [if_neg (by decide), if_pos trivial]
    rfl
  rw [hm]
  refine ⟨rfl, ?_⟩
  rcases checkFilesIf_spec year acc disk (looked acc cwd disk args) with ⟨p, hp, t, e, h1, h2, h3, h4⟩ | ⟨h1, h2⟩
  · obtain ⟨ns, f, t', ht', hr, hn, hs⟩ := of_looked hc hd hp
    rw [hn] at h2 h3
    rw [h4]
    refine ⟨⟨fun _ => ⟨ns, f, t', e, ht', hr, hs.1 h1, h3⟩, fun _ => ⟨e, rfl⟩⟩, ?_, ?_⟩
    · intro e' he'
      cases he'
      exact ⟨ns, f, t', ht', hr, hs.1 h1, h3⟩
    · intro status h
      cases h
  · rw [h2]
    refine ⟨⟨?_, ?_⟩, ?_, ?_⟩
    · rintro ⟨e, h⟩
      cases h
    · rintro ⟨ns, f, t, e, ht, hr, hs, hk⟩
      obtain ⟨p, hp, hn, hs'⟩ := to_looked hc hd ht hr
      have := h1 p hp t (hs'.2 hs) (by rw [hn]; exact ht)
      rw [hn, hk] at this
      cases this
    · intro e h
      cases h
    · intro status h
      cases h
      have h01 : ∀ P : Prop, [Decidable P] → ((if P then 0 else 1 : Nat) = 0 ↔ P) := by
        intro P _
        split <;> simp [*]
      refine ⟨by beta_reduce; split <;> simp, ?_⟩
      beta_reduce
      rw [h01, List.filter_eq_nil_iff]
      constructor
      · intro h ns f t ht hr hs
        obtain ⟨p, hp, hn, hs'⟩ := to_looked hc hd ht hr
        have := h p hp
        rw [needsFix_text, hn, ht, hs'.2 hs, Bool.true_and] at this
        rw [← headed_iff]
        simpa using this
      · intro h p hp
        obtain ⟨ns, f, t, ht, hr, hn, hs⟩ := of_looked hc hd hp
        rw [needsFix_text, hn, ht, Bool.and_eq_true, hs]
        rintro ⟨h3, h4⟩
        have := (headed_iff year t).2 (h ns f t ht hr h3)
        simp only at h4
        rw [this] at h4
        cases h4

theorem fix_main (year : Nat) (acc : Access) (prog : Text) (args : List Text) :
    headersMainIf year acc (pathText cwd) (prog :: lit "fix" :: args) disk =
      ((fixFilesIf year acc (looked acc cwd disk args) disk).1, (fixFilesIf year acc (looked acc cwd disk args) disk).2.map fun _ => 0) := by
  unfold headersMainIf
  simp only
  rw [if_pos trivial, fixDiskIf_eq]
  rfl

open Classical in
/-- **C98.** What `fix` does when files cannot be read or written. It raises exactly if some Python file that it comes to cannot be
read, or has no header and cannot be read to its end or written; then it raises what this raises. Whether it raises or
not, each file is as before, or it is a file without header that `fix` came to, all accesses to it work, and it has the
header now; no file or directory appears or disappears. If it does not raise, all such files have the header
now. -/
theorem C98_fix (year : Nat) (acc : Access) (hc : ∀ n ∈ cwd, Name n) (hd : disk.Ok) (prog : Text) (args : List Text) :
    ∃ disk' r, headersMainIf year acc (pathText cwd) (prog :: lit "fix" :: args) disk = (disk', r) ∧
      (∀ ns, disk'.isDir ns = disk.isDir ns) ∧ (∀ ns, disk'.text ns = none ↔ disk.text ns = none) ∧
      (∀ ns f t, disk.text (ns ++ [f]) = some t → disk'.text (ns ++ [f]) = some t ∨
        disk'.text (ns ++ [f]) = some (addHeader year t) ∧ Reached acc cwd args ns f ∧ InScope ns f ∧ ¬ Headed year t ∧
          acc.peek (ns ++ [f]) = none ∧ acc.load (ns ++ [f]) = none ∧ acc.save (ns ++ [f]) = none) ∧
      ((∃ e, r = .error e) ↔
        ∃ ns f t e, disk.text (ns ++ [f]) = some t ∧ Reached acc cwd args ns f ∧ InScope ns f ∧ StopsFix year acc (ns ++ [f]) t e) ∧
      (∀ e, r = .error e →
        ∃ ns f t, disk.text (ns ++ [f]) = some t ∧ Reached acc cwd args ns f ∧ InScope ns f ∧ StopsFix year acc (ns ++ [f]) t e) ∧
      (∀ status, r = .ok status → status = 0 ∧ ∀ ns f t, disk.text (ns ++ [f]) = some t → disk'.text (ns ++ [f]) =
        some (if Reached acc cwd args ns f ∧ InScope ns f ∧ ¬ Headed year t then addHeader year t else t)) := by
  rw [fix_main]
  obtain ⟨qs, h1, h2, h3, h4⟩ := fixFilesIf_spec year acc (looked acc cwd disk args) disk
  refine ⟨_, _, rfl, ?_⟩
  rw [h2]
  have hsh := shape_fold year qs disk
  have good : ∀ p ∈ qs, ∀ ns f t, disk.text (ns ++ [f]) = some t → namesOf p = ns ++ [f] → disk.needsFix year p = true →
      Reached acc cwd args ns f ∧ InScope ns f ∧ ¬ Headed year t ∧
          acc.peek (ns ++ [f]) = none ∧ acc.load (ns ++ [f]) = none ∧ acc.save (ns ++ [f]) = none := by
    intro p hp ns f t ht hn hf
    obtain ⟨ns', f', t', ht', hr, hn', hs⟩ := of_looked hc hd (h1.subset hp)
    obtain ⟨rfl, hff⟩ := List.append_inj' (hn'.symm.trans hn) rfl
    cases hff
    rw [needsFix_text, hn, ht, Bool.and_eq_true] at hf
    obtain ⟨hf1, hf2⟩ := hf
    have hb := fun e => (badPath_iff (year := year) (acc := acc) ht hn hs e).not.1 (h3 p hp e)
    have hh : ¬ Headed year t := by
      rw [← headed_iff]
      simpa using hf2
    have hk : acc.peek (ns' ++ [f]) = none := by
      cases hk : acc.peek (ns' ++ [f]) with
      | none => rfl
      | some e => exact absurd ⟨hs.1 hf1, .inl hk⟩ (hb e)
    have hl : acc.load (ns' ++ [f]) = none := by
      cases hl : acc.load (ns' ++ [f]) with
      | none => rfl
      | some e => exact absurd ⟨hs.1 hf1, .inr ⟨hk, hh, .inl hl⟩⟩ (hb e)
    have hsv : acc.save (ns' ++ [f]) = none := by
      cases hsv : acc.save (ns' ++ [f]) with
      | none => rfl
      | some e => exact absurd ⟨hs.1 hf1, .inr ⟨hk, hh, .inr ⟨hl, hsv⟩⟩⟩ (hb e)
    exact ⟨hr, hs.1 hf1, hh, hk, hl, hsv⟩
  refine ⟨fun ns => by rw [← isDir_shape, hsh, isDir_shape], fun ns => text_none_of_shape hsh ns, ?_, ?_, ?_, ?_⟩
  · intro ns f t ht
    rw [text_fold, ht]
    by_cases h : ∃ p ∈ qs, namesOf p = ns ++ [f] ∧ disk.needsFix year p = true
    · obtain ⟨p, hp, hn, hf⟩ := h
      rw [if_pos ⟨p, hp, hn, hf⟩]
      exact .inr ⟨rfl, good p hp ns f t ht hn hf⟩
    · rw [if_neg h]
      exact .inl rfl
  · constructor
    · rintro ⟨e, he⟩
      rcases h4 with ⟨h4, -⟩ | ⟨p, hp, e', hb, h4⟩
      · rw [h4] at he; cases he
      · obtain ⟨ns, f, t, ht, hr, hn, hs⟩ := of_looked hc hd hp
        obtain ⟨h5, h6⟩ := (badPath_iff ht hn hs e').1 hb
        exact ⟨ns, f, t, e', ht, hr, h5, h6⟩
    · rintro ⟨ns, f, t, e, ht, hr, hs, hb⟩
      obtain ⟨p, hp, hn, hs'⟩ := to_looked hc hd ht hr
      rcases h4 with ⟨h4, rfl⟩ | ⟨p, hp, e', hb, h4⟩
      · exact absurd ((badPath_iff ht hn hs' e).2 ⟨hs, hb⟩) (h3 p hp e)
      · exact ⟨e', by rw [h4]; rfl⟩
  · intro e he
    rcases h4 with ⟨h4, -⟩ | ⟨p, hp, e', hb, h4⟩
    · rw [h4] at he; cases he
    · rw [h4] at he
      cases he
      obtain ⟨ns, f, t, ht, hr, hn, hs⟩ := of_looked hc hd hp
      obtain ⟨h5, h6⟩ := (badPath_iff ht hn hs e).1 hb
      exact ⟨ns, f, t, ht, hr, h5, h6⟩
  · intro status h
    rcases h4 with ⟨h4, rfl⟩ | ⟨p, hp, e', hb, h4⟩
    · rw [h4] at h
      cases h
      refine ⟨rfl, fun ns f t ht => ?_⟩
      rw [text_fold, ht]
      by_cases h : Reached acc cwd args ns f ∧ InScope ns f ∧ ¬ Headed year t
      · obtain ⟨p, hp, hn, hs⟩ := to_looked hc hd ht h.1
        have hf : disk.needsFix year p = true := by
          have := h.2.2
          rw [← headed_iff] at this
          rw [needsFix_text, hn, ht, hs.2 h.2.1, Bool.true_and]
          simpa using this
        rw [if_pos h, if_pos ⟨p, hp, hn, hf⟩, Option.map_some]
      · rw [if_neg h, if_neg]
        rintro ⟨p, hp, hn, hf⟩
        obtain ⟨g1, g2, g3, -⟩ := good p hp ns f t ht hn hf
        exact h ⟨g1, g2, g3⟩
    · rw [h4] at h
      cases h

theorem seen_congr {acc acc' : Access} (h : acc.closed = acc'.closed) (here : List Text) (d : Dir) :
    d.seen acc here = d.seen acc' here := by
  induction d generalizing here with
  | nil => rfl
  | file m t r ih => rw [Dir.seen, Dir.seen, ih]
  | dir m s r ihs ihr => rw [Dir.seen, Dir.seen, ihr, ihs, h]

theorem looked_congr {acc acc' : Access} (h : acc.closed = acc'.closed) (args : List Text) :
    looked acc cwd disk args = looked acc' cwd disk args := by
  unfold looked
  congr 1
  funext s
  unfold Dir.sourceFilesIf
  simp only [seen_congr h, h]

theorem fixFilesIf_first (bs as : List Text) (p : Text) (e : Err) (d : Dir) (h : ∀ q ∈ bs, ∀ e, ¬ BadPath year acc d q e)
    (hp : BadPath year acc d p e) : fixFilesIf year acc (bs ++ p :: as) d = (bs.foldl (fixStep year) d, .error e) := by
  induction bs generalizing d with
  | nil =>
    rw [List.nil_append]
    rcases fixFilesIf_cons year acc p as d with ⟨e', hb, he⟩ | ⟨hb, -⟩
    · rw [he, badPath_unique hp hb]; rfl
    · exact absurd hp (hb e)
  | cons q bs ih =>
    rw [List.cons_append]
    rcases fixFilesIf_cons year acc q (bs ++ p :: as) d with ⟨e', hb, -⟩ | ⟨hb, he⟩
    · exact absurd hb (h q (by simp) e')
    · rw [he, ih _ (fun r hr e' hb' => h r (by simp [hr]) e' ((badPath_step hb r e').1 hb')) ((badPath_step hb p e).2 hp)]
      rfl

theorem checkFilesIf_first (bs as : List Text) (p t : Text) (e : Err)
    (h : ∀ q ∈ bs, ∀ t, pathChecked q = true → disk.text (namesOf q) = some t → acc.peek (namesOf q) = none)
    (hp : pathChecked p = true) (ht : disk.text (namesOf p) = some t) (he : acc.peek (namesOf p) = some e) :
    checkFilesIf year acc disk (bs ++ p :: as) = .error e := by
  induction bs with
  | nil =>
    rw [List.nil_append, checkFilesIf, needsFixIf_text, if_pos hp, ht]
    simp only [he]
    rfl
  | cons q bs ih =>
    rw [List.cons_append, checkFilesIf, ih fun r hr => h r (by simp [hr]), needsFixIf_text]
    by_cases hq : pathChecked q = true
    · rw [if_pos hq]
      cases htq : disk.text (namesOf q) with
      | none => rfl
      | some u =>
        simp only [h q (by simp) u hq htq]
        rfl
    · rw [if_neg hq]
      rfl

open Classical in
/-- **C98.** The order in which the files are dealt with does not depend on which of them fail: one argument after the other, the files
in scope that it leads to, in some order. `check` raises what the first file raises that cannot be read. If there is a file at which
`fix` has to stop, then `fix` raises what the first one raises; the files before it have got the header where it was missing
and the others are as they were. -/
theorem C98_order (year : Nat) (closed : List Text → Bool) (hc : ∀ n ∈ cwd, Name n) (hd : disk.Ok) :
    ∃ order : Text → List (List Text × Text), ∀ acc : Access, acc.closed = closed → ∀ (prog : Text) (args : List Text),
      (∀ ns f, (ns, f) ∈ args.flatMap order ↔ disk.text (ns ++ [f]) ≠ none ∧ Reached acc cwd args ns f ∧ InScope ns f) ∧
      ∀ before ns f after, args.flatMap order = before ++ (ns, f) :: after →
        (∀ e, (∀ m ∈ before, acc.peek (m.1 ++ [m.2]) = none) → acc.peek (ns ++ [f]) = some e →
          (headersMainIf year acc (pathText cwd) (prog :: lit "check" :: args) disk).2 = .error e) ∧
        ∀ t e, (∀ m ∈ before, ∀ t e, disk.text (m.1 ++ [m.2]) = some t → ¬ StopsFix year acc (m.1 ++ [m.2]) t e) →
          disk.text (ns ++ [f]) = some t → StopsFix year acc (ns ++ [f]) t e →
          ∃ disk', headersMainIf year acc (pathText cwd) (prog :: lit "fix" :: args) disk = (disk', .error e) ∧
            ∀ ms g t, disk.text (ms ++ [g]) = some t → disk'.text (ms ++ [g]) =
              some (if (ms, g) ∈ before ∧ ¬ Headed year t then addHeader year t else t) := by
  let acc0 : Access := ⟨closed, fun _ => none, fun _ => none, fun _ => none⟩
  let pr : Text → List Text × Text := fun p => ((namesOf p).dropLast, (namesOf p).getLastD [])
  have hpr : ∀ {p ns f}, namesOf p = ns ++ [f] → pr p = (ns, f) := by
    intro p ns f h
    simp [pr, h]
  refine ⟨fun a => (((disk.sourceFilesIf acc0 (absPath (pathText cwd) a)).filter pathChecked).map pr), fun acc ha prog args => ?_⟩
  have hL : args.flatMap (fun a => (((disk.sourceFilesIf acc0 (absPath (pathText cwd) a)).filter pathChecked).map pr)) =
      ((looked acc cwd disk args).filter pathChecked).map pr := by
    rw [looked_congr (acc' := acc0) ha]
    unfold looked
    rw [List.filter_flatMap, List.map_flatMap, List.flatMap_map]
  rw [hL]
  refine ⟨fun ns f => ⟨fun h => ?_, fun ⟨ht, hr, hs⟩ => ?_⟩, fun before ns f after hsplit => ?_⟩
  · obtain ⟨p, hp, he⟩ := List.mem_map.1 h
    obtain ⟨hp, hck⟩ := List.mem_filter.1 hp
    obtain ⟨ns', f', t, ht, hr, hn, hs⟩ := of_looked hc hd hp
    rw [hpr hn] at he
    cases he
    exact ⟨by rw [ht]; simp, hr, hs.1 hck⟩
  · obtain ⟨t, ht⟩ := Option.ne_none_iff_exists'.1 ht
    obtain ⟨p, hp, hn, hs'⟩ := to_looked hc hd ht hr
    exact List.mem_map.2 ⟨p, List.mem_filter.2 ⟨hp, hs'.2 hs⟩, hpr hn⟩
  obtain ⟨l1, l2, hl, rfl, h2⟩ := List.map_eq_append_iff.1 hsplit
  obtain ⟨p, l3, rfl, hpe, rfl⟩ := List.map_eq_cons_iff.1 h2
  obtain ⟨k1, k2, hk, rfl, h2⟩ := List.filter_eq_append_iff.1 hl
  obtain ⟨j1, j2, rfl, hj, hpc, rfl⟩ := List.filter_eq_cons_iff.1 h2
  rw [← List.append_assoc] at hk
  have hpL : p ∈ looked acc cwd disk args := by rw [hk]; simp
  obtain ⟨ns', f', t, ht, hr, hn, hs⟩ := of_looked hc hd hpL
  rw [hpr hn] at hpe
  cases hpe
  have early : ∀ q ∈ k1 ++ j1, pathChecked q = true → pr q ∈ (k1.filter pathChecked).map pr := by
    intro q hq hqc
    rcases List.mem_append.1 hq with hq | hq
    · exact List.mem_map.2 ⟨q, List.mem_filter.2 ⟨hq, hqc⟩, rfl⟩
    · exact absurd hqc (hj q hq)
  have inL : ∀ q ∈ k1 ++ j1, q ∈ looked acc cwd disk args := by
    intro q hq
    rw [hk]
    exact List.mem_append_left _ hq
  constructor
  · intro e hb he
    have hm : headersMainIf year acc (pathText cwd) (prog :: lit "check" :: args) disk =
        (disk, (checkFilesIf year acc disk (looked acc cwd disk args)).map fun qs => if qs = [] then 0 else 1) := by
      unfold headersMainIf
      simp only
      rw [if_neg (by decide), if_pos trivial]
      rfl
    rw [hm, hk, checkFilesIf_first (k1 ++ j1) j2 p t e ?_ hpc (by rw [hn]; exact ht) (by rw [hn]; exact he)]
    · rfl
    · intro q hq u hqc _
      obtain ⟨ms, g, u', -, -, hn', -⟩ := of_looked hc hd (inL q hq)
      have := hb _ (early q hq hqc)
      rw [hpr hn'] at this
      rw [hn']
      exact this
  · intro t' e hb ht' he
    rw [ht] at ht'
    cases ht'
    rw [fix_main, hk, fixFilesIf_first (k1 ++ j1) j2 p e disk ?_ ((badPath_iff ht hn hs e).2 ⟨hs.1 hpc, he⟩)]
    · refine ⟨_, rfl, fun ms g u hu => ?_⟩
      rw [text_fold, hu]
      by_cases h : (ms, g) ∈ (k1.filter pathChecked).map pr ∧ ¬ Headed year u
      · obtain ⟨q, hq, hqe⟩ := List.mem_map.1 h.1
        obtain ⟨hq, hqc⟩ := List.mem_filter.1 hq
        obtain ⟨ms', g', u', -, -, hn', -⟩ := of_looked hc hd (inL q (List.mem_append_left _ hq))
        rw [hpr hn'] at hqe
        cases hqe
        have hf : disk.needsFix year q = true := by
          have := h.2
          rw [← headed_iff] at this
          rw [needsFix_text, hn', hu, hqc, Bool.true_and]
          simpa using this
        rw [if_pos h, if_pos ⟨q, List.mem_append_left _ hq, hn', hf⟩, Option.map_some]
      · rw [if_neg h, if_neg]
        rintro ⟨q, hq, hn', hf⟩
        rw [needsFix_text, hn', hu, Bool.and_eq_true] at hf
        refine h ⟨?_, ?_⟩
        · have := early q hq hf.1
          rwa [hpr hn'] at this
        · rw [← headed_iff]
          simpa using hf.2
    · intro q hq e' hbad
      obtain ⟨ms, g, u, hu, -, hn', hs'⟩ := of_looked hc hd (inL q hq)
      have := hb _ (early q hq hbad.1) u e'
      rw [hpr hn'] at this
      exact this hu ((badPath_iff hu hn' hs' e').1 hbad).2

theorem looked_covered (hc : ∀ n ∈ cwd, Name n) (hd : disk.Ok) {args : List Text} {p : Text} (h : p ∈ looked acc cwd disk args) :
    p ∈ (args.map (absPath (pathText cwd))).flatMap disk.sourceFiles := by
  obtain ⟨s, hs, hp⟩ := List.mem_flatMap.1 h
  refine List.mem_flatMap.2 ⟨s, hs, ?_⟩
  obtain ⟨a, ha, rfl⟩ := List.mem_map.1 hs
  obtain ⟨sl, hsl, he⟩ := absPath_eq hc a
  rw [he, mem_sourceFilesIf hsl hd (resolve_names hc a)] at hp
  obtain ⟨ns, f, t, ht, hpre, hcl, rfl⟩ := hp
  rw [he, mem_sourceFiles hsl hd (resolve_names hc a)]
  exact ⟨_, t, ht, hpre, rfl⟩

/-- **C98.** However far `fix` got, once all files can be read and written and all directories listed, running it again gives what it
would have given in the first place. -/
theorem C98_repaired (year : Nat) (acc : Access) (hc : ∀ n ∈ cwd, Name n) (hd : disk.Ok) (prog : Text) (args : List Text) :
    headersMain year (pathText cwd) (prog :: lit "fix" :: args)
        (headersMainIf year acc (pathText cwd) (prog :: lit "fix" :: args) disk).1 =
      headersMain year (pathText cwd) (prog :: lit "fix" :: args) disk := by
  rw [fix_main]
  obtain ⟨qs, h1, h2, -, -⟩ := fixFilesIf_spec year acc (looked acc cwd disk args) disk
  show Except.ok (fixDisk year (args.map (absPath (pathText cwd))) _, 0) = Except.ok (fixDisk year (args.map (absPath (pathText cwd))) disk, 0)
  congr 2
  simp only
  rw [h2, fixDisk_eq, fixDisk_eq]
  have hsh := shape_fold year qs disk
  have hL : ∀ s, (qs.foldl (fixStep year) disk).sourceFiles s = disk.sourceFiles s := by
    intro s
    rw [← sourceFiles_shape, hsh, sourceFiles_shape]
  rw [funext hL]
  generalize hLs : (args.map (absPath (pathText cwd))).flatMap disk.sourceFiles = L
  have hq : ∀ p ∈ qs, p ∈ L := fun p hp => hLs ▸ looked_covered hc hd (h1.subset hp)
  refine text_eq_of_shape (by rw [shape_fold, shape_fold, shape_fold]) (fun ns => ?_) (by rw [← ok_shape, shape_fold, ok_shape]; exact hd)
  rw [← List.foldl_append, text_fold, text_fold]
  have : (∃ p ∈ qs ++ L, namesOf p = ns ∧ disk.needsFix year p = true) ↔ ∃ p ∈ L, namesOf p = ns ∧ disk.needsFix year p = true := by
    constructor
    · rintro ⟨p, hp, h⟩
      rcases List.mem_append.1 hp with hp | hp
      exacts [⟨p, hq p hp, h⟩, ⟨p, hp, h⟩]
    · rintro ⟨p, hp, h⟩
      exact ⟨p, by simp [hp], h⟩
  simp only [this]

theorem seen_all (here : List Text) (d : Dir) : d.seen Access.all here = d := by
  induction d generalizing here with
  | nil => rfl
  | file m t r ih => rw [Dir.seen, ih]
  | dir m s r ihs ihr => rw [Dir.seen, ihr, ihs]; rfl

theorem sourceFilesIf_all (d : Dir) (s : Text) : d.sourceFilesIf Access.all s = d.sourceFiles s := by
  unfold Dir.sourceFilesIf Dir.sourceFiles
  cases d.get (namesOf s) with
  | none => rfl
  | some e =>
    cases e with
    | file t => rfl
    | dir x =>
      simp only [seen_all]
      rfl

/-- **C98.** If nothing fails this is the script of C84. -/
theorem C98_all (year : Nat) (cwd : Text) (argv : List Text) (disk : Dir) :
    headersMainIf year .all cwd argv disk = match headersMain year cwd argv disk with
      | .ok (disk', status) => (disk', .ok status)
      | .error e => (disk, .error e) := by
  have nobad : ∀ (d : Dir) p e, ¬ BadPath year .all d p e := by
    rintro d p e ⟨-, t, -, h | ⟨-, -, h | ⟨-, h⟩⟩⟩ <;> cases h
  unfold headersMainIf headersMain
  match argv with
  | [] => rfl
  | [_] => rfl
  | _ :: mode :: args =>
    simp only
    split
    · obtain ⟨qs, -, h2, -, h4⟩ := fixFilesIf_spec year .all ((args.map (absPath cwd)).flatMap (disk.sourceFilesIf .all)) disk
      rcases h4 with ⟨h4, rfl⟩ | ⟨p, hp, e, hb, -⟩
      · simp only
        rw [fixDiskIf_eq, h4, h2, fixDisk_eq, funext (sourceFilesIf_all disk)]
        rfl
      · exact absurd hb (nobad _ _ _)
    · split
      · rcases checkFilesIf_spec year .all disk ((args.map (absPath cwd)).flatMap (disk.sourceFilesIf .all)) with
          ⟨p, hp, t, e, -, -, h, -⟩ | ⟨-, h⟩
        · cases h
        · rw [h, funext (sourceFilesIf_all disk), checkDisk, ← List.filter_flatMap]
          rfl
      · rfl

end

/-! ### Examples -/

/-- `lib/b.py` is read-only. -/
def readOnly : Access :=
  ⟨fun _ => false, fun _ => none, fun _ => none, fun p => if p = demoCwd ++ [lit "lib", lit "b.py"] then some .os else none⟩

theorem demo_b_not_headed : ¬ Headed 2022 [] := by
  rw [← headed_iff, Bool.not_eq_false]
  decide +kernel

theorem demo_reached {acc : Access} (ha : ∀ p, acc.closed p = false) (ns : List Text) (f : Text) :
    Reached acc demoCwd [lit "./lib//.."] (demoCwd ++ ns) f :=
  ⟨lit "./lib//..", by simp, by
    rw [show resolve demoCwd (lit "./lib//..") = demoCwd by decide, List.append_assoc]
    exact List.prefix_append _ _, fun _ _ _ => ha _⟩

/-- `fix` raises the error of the read-only file, which stays as it is. -/
example : ∃ disk', headersMainIf 2022 readOnly (pathText demoCwd) [lit "s", lit "fix", lit "./lib//.."] demoDisk = (disk', .error .os) ∧
    disk'.text (demoCwd ++ [lit "lib", lit "b.py"]) = some [] := by
  obtain ⟨disk', r, h1, h2, h3, h4, h5, h6, h7⟩ := C98_fix 2022 readOnly demoCwd_names demoDisk_ok (lit "s") [lit "./lib//.."]
  obtain ⟨e, he⟩ := h5.2 ⟨demoCwd ++ [lit "lib"], lit "b.py", [], .os, rfl, demo_reached (fun _ => rfl) _ _,
    ⟨⟨lit ".py", by simp, by decide⟩, by decide⟩, .inr ⟨rfl, demo_b_not_headed, .inr ⟨rfl, by decide⟩⟩⟩
  obtain ⟨ns, f, t, -, -, -, hs⟩ := h6 e he
  have : e = .os := by
    rcases hs with hs | ⟨-, -, hs | ⟨-, hs⟩⟩
    · cases hs
    · cases hs
    · simp only [readOnly] at hs
      split at hs
      · cases hs; rfl
      · cases hs
  refine ⟨disk', by rw [h1, he, this], ?_⟩
  rcases h4 (demoCwd ++ [lit "lib"]) (lit "b.py") [] rfl with h | ⟨-, -, -, -, -, -, h⟩
  · exact h
  · exact absurd h (by decide)

theorem demo_reached_file {acc : Access} (ha : ∀ p, acc.closed p = false) {a : Text} {ms ns : List Text} {g f : Text}
    (he : resolve demoCwd a = ms ++ [g]) (ht : demoDisk.text (ms ++ [g]) ≠ none) :
    demoDisk.text (ns ++ [f]) ≠ none ∧ Reached acc demoCwd [a] ns f ↔ ns = ms ∧ f = g := by
  constructor
  · rintro ⟨h1, a', ha', ⟨x, hx⟩, -⟩
    rw [List.mem_singleton.1 ha', he] at hx
    cases x with
    | nil =>
      rw [List.append_nil] at hx
      obtain ⟨h3, h4⟩ := List.append_inj' hx rfl
      exact ⟨h3.symm, by simpa using h4.symm⟩
    | cons y x =>
      obtain ⟨t, ht⟩ := Option.ne_none_iff_exists'.1 ht
      obtain ⟨u, hu⟩ := Option.ne_none_iff_exists'.1 h1
      rw [text_eq] at ht hu
      rw [← hx, get_append _ _ _ (by simp), ht] at hu
      cases hu
  · rintro ⟨rfl, rfl⟩
    exact ⟨ht, a, by simp, by rw [he], fun _ _ _ => ha _⟩

/-- `fix` on `a.py` and the read-only `lib/b.py`, in this order: `a.py` has the header afterwards. -/
example : ∃ disk', headersMainIf 2022 readOnly (pathText demoCwd) [lit "s", lit "fix", lit "a.py", lit "lib/b.py"] demoDisk =
      (disk', .error .os) ∧ disk'.text (demoCwd ++ [lit "a.py"]) = some (addHeader 2022 (lit "x = 1\n")) := by
  obtain ⟨order, h⟩ := C98_order 2022 (fun _ => false) demoCwd_names demoDisk_ok
  have h := h readOnly rfl (lit "s")
  have ha : ∀ m, m ∈ order (lit "a.py") ↔ m = (demoCwd, lit "a.py") := by
    rintro ⟨ns, f⟩
    have := (h [lit "a.py"]).1 ns f
    rw [List.flatMap_cons, List.flatMap_nil, List.append_nil, ← and_assoc,
      demo_reached_file (acc := readOnly) (fun _ => rfl) (ms := demoCwd) (g := lit "a.py") (by decide) (by decide)] at this
    rw [this, Prod.mk.injEq]
    refine ⟨fun h => h.1, fun h => ⟨h, ?_⟩⟩
    rw [h.1, h.2]
    exact ⟨⟨lit ".py", by simp, by decide⟩, by decide⟩
  have hb : ∀ m, m ∈ order (lit "lib/b.py") ↔ m = (demoCwd ++ [lit "lib"], lit "b.py") := by
    rintro ⟨ns, f⟩
    have := (h [lit "lib/b.py"]).1 ns f
    rw [List.flatMap_cons, List.flatMap_nil, List.append_nil, ← and_assoc,
      demo_reached_file (acc := readOnly) (fun _ => rfl) (ms := demoCwd ++ [lit "lib"]) (g := lit "b.py") (by decide) (by decide)] at this
    rw [this, Prod.mk.injEq]
    refine ⟨fun h => h.1, fun h => ⟨h, ?_⟩⟩
    rw [h.1, h.2]
    exact ⟨⟨lit ".py", by simp, by decide⟩, by decide⟩
  cases ho : order (lit "lib/b.py") with
  | nil => exact absurd ((hb _).2 rfl) (by rw [ho]; simp)
  | cons m rest =>
    have hm := (hb m).1 (by rw [ho]; simp)
    obtain ⟨disk', h1, h2⟩ := ((h [lit "a.py", lit "lib/b.py"]).2 (order (lit "a.py")) (demoCwd ++ [lit "lib"]) (lit "b.py") rest
      (by simp [ho, hm])).2 [] .os (by
        intro m hm t e ht
        rw [(ha m).1 hm]
        rintro (h | ⟨-, -, h | ⟨-, h⟩⟩)
        · cases h
        · cases h
        · exact absurd h (by decide +revert)) rfl (.inr ⟨rfl, demo_b_not_headed, .inr ⟨rfl, by decide⟩⟩)
    refine ⟨disk', h1, ?_⟩
    rw [h2 demoCwd (lit "a.py") (lit "x = 1\n") rfl, if_pos ⟨(ha _).2 rfl, demo_a_not_headed⟩]

/-- `check` on the same files does not mind, as it does not write, and notices the missing headers. -/
example : (headersMainIf 2022 readOnly (pathText demoCwd) [lit "s", lit "check", lit "./lib//.."] demoDisk).2 = .ok 1 := by
  obtain ⟨-, h1, -, h2⟩ := C98_check 2022 readOnly demoCwd_names demoDisk_ok (lit "s") [lit "./lib//.."]
  cases h : (headersMainIf 2022 readOnly (pathText demoCwd) [lit "s", lit "check", lit "./lib//.."] demoDisk).2 with
  | error e =>
    obtain ⟨ns, f, t, e, -, -, -, hk⟩ := h1.1 ⟨e, h⟩
    cases hk
  | ok status =>
    obtain ⟨h3, h4⟩ := h2 status h
    rcases h3 with rfl | rfl
    · exact absurd (h4.1 rfl demoCwd (lit "a.py") (lit "x = 1\n") rfl (by simpa using demo_reached (acc := readOnly) (fun _ => rfl) [] (lit "a.py"))
        ⟨⟨lit ".py", by simp, by decide⟩, by decide⟩) demo_a_not_headed
    · rfl

/-- The directory `lib` cannot be listed: `check` on it finds nothing to complain about. -/
example : (headersMainIf 2022 ⟨fun p => p = demoCwd ++ [lit "lib"], fun _ => none, fun _ => none, fun _ => none⟩ (pathText demoCwd)
    [lit "s", lit "check", lit "lib"] demoDisk).2 = .ok 0 := by
  obtain ⟨-, h1, -, h2⟩ := C98_check 2022 ⟨fun p => p = demoCwd ++ [lit "lib"], fun _ => none, fun _ => none, fun _ => none⟩
    demoCwd_names demoDisk_ok (lit "s") [lit "lib"]
  cases h : (headersMainIf 2022 ⟨fun p => p = demoCwd ++ [lit "lib"], fun _ => none, fun _ => none, fun _ => none⟩ (pathText demoCwd)
    [lit "s", lit "check", lit "lib"] demoDisk).2 with
  | error e =>
    obtain ⟨ns, f, t, e, -, -, -, hk⟩ := h1.1 ⟨e, h⟩
    cases hk
  | ok status =>
    obtain ⟨h3, h4⟩ := h2 status h
    rw [h4.2]
    rintro ns f t ht ⟨a, ha, hp, hcl⟩ hs
    rw [List.mem_singleton.1 ha, show resolve demoCwd (lit "lib") = demoCwd ++ [lit "lib"] by decide] at hp hcl
    rcases (List.prefix_concat_iff).1 hp with e | e
    · rw [← e] at ht
      cases ht
    · have := hcl _ (List.prefix_refl _) e
      simp at this

end QuDiet.Tools
