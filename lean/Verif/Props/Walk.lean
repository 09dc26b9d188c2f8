import Verif.Walk
import Verif.Props.Tools

/-! # C84: the licence header script from the command line -/

namespace QuDiet.Tools
open QuDiet.Qasm

/-! ### Specification -/

/-- A name of a file or directory. -/
def Name (n : Text) : Prop := n ≠ [] ∧ '/' ∉ n ∧ n ≠ lit "." ∧ n ≠ lit ".."

/-- Entries are named, and no two of one directory have the same name. -/
def Dir.Ok : Dir → Prop
  | .nil => True
  | .file n _ r => Name n ∧ r.find n = none ∧ r.Ok
  | .dir n s r => Name n ∧ r.find n = none ∧ s.Ok ∧ r.Ok

/-- The contents of a file. -/
def Dir.text (d : Dir) (ns : List Text) : Option Text :=
  match d.get ns with
  | some (.file t) => some t
  | _ => none

/-- Is it a directory? -/
def Dir.isDir (d : Dir) (ns : List Text) : Bool :=
  match d.get ns with
  | some (.dir _) => true
  | _ => false

/-- An absolute path as text. -/
def pathText (ns : List Text) : Text := '/' :: ['/'].intercalate ns

/-- Where an argument leads, from the directory `cwd`: `.` stays, `..` goes up, any other name goes down. -/
def resolve (cwd : List Text) (arg : Text) : List Text :=
  (splitCh '/' arg).foldl (fun here n =>
    if n = [] ∨ n = lit "." then here else if n = lit ".." then here.dropLast else here ++ [n])
    (if arg.head? = some '/' then [] else cwd)

/-- The name begins with a dot or with two underscores. -/
def Hidden (n : Text) : Prop := lit "." <+: n ∨ lit "__" <+: n

/-- A Python file, none of whose directories is hidden, right up to the root. -/
def InScope (ns : List Text) (f : Text) : Prop :=
  (∃ s ∈ [lit ".py", lit ".pyi", lit ".py\n", lit ".pyi\n"], s <:+ f) ∧ ∀ n ∈ ns, ¬ Hidden n

/-- After some lines that may stand above it, the header stands in full, or the file ends within it. -/
def Headed (year : Nat) (t : Text) : Prop :=
  ∃ a b : List Text, (∀ l ∈ a, l ∈ keep) ∧ fileLines t = a ++ b ∧ b ≠ [] ∧ (header year <+: b ∨ b <+: header year)

/-- The file `f` in the directory `ns` is named by an argument, or lies in or below a directory that is. -/
def Covered (cwd : List Text) (args : List Text) (ns : List Text) (f : Text) : Prop :=
  ∃ a ∈ args, resolve cwd a <+: ns ++ [f]

/-! ### Paths -/

theorem headed_iff (year : Nat) (t : Text) : needsFixLines (header year) (fileLines t) = false ↔ Headed year t := by
  have h := C42_check year (lit "a.py") (fun _ => t)
  have hp : pathChecked (lit "a.py") = true := by decide
  rw [needsFix, hp, Bool.true_and] at h
  rw [h]
  simp [Headed]

theorem intercalate_cons {n : Text} {ns : List Text} (h : ns ≠ []) :
    ['/'].intercalate (n :: ns) = n ++ '/' :: ['/'].intercalate ns := by
  cases ns with
  | nil => exact absurd rfl h
  | cons m ns => simp [List.intercalate, List.intersperse]

theorem intercalate_snoc {n : Text} {ns : List Text} (h : ns ≠ []) :
    ['/'].intercalate (ns ++ [n]) = ['/'].intercalate ns ++ '/' :: n := by
  induction ns with
  | nil => exact absurd rfl h
  | cons m ns ih =>
    cases ns with
    | nil => simp [List.intercalate, List.intersperse]
    | cons k ns =>
      rw [List.cons_append, intercalate_cons (ns := k :: ns ++ [n]) (by simp), ih (by simp), intercalate_cons (ns := k :: ns) (by simp)]
      simp

theorem split_intercalate {ns : List Text} (h : ns ≠ []) (hn : ∀ n ∈ ns, '/' ∉ n) :
    splitCh '/' (['/'].intercalate ns) = ns := by
  induction ns with
  | nil => exact absurd rfl h
  | cons m ns ih =>
    cases ns with
    | nil => simpa [List.intercalate] using splitCh_line (hn m (by simp))
    | cons k ns =>
      rw [intercalate_cons (by simp), splitCh_append (hn m (by simp)), ih (by simp) fun n hn' => hn n (by simp [hn'])]

theorem split_no_sep {sep : Char} (t : Text) : ∀ c ∈ splitCh sep t, sep ∉ c := by
  induction t with
  | nil => simp [splitCh]
  | cons a t ih =>
    intro c hc
    rw [splitCh] at hc
    split at hc
    · rcases List.mem_cons.1 hc with rfl | hc
      · simp
      · exact ih c hc
    · rename_i ha
      cases hs : splitCh sep t with
      | nil =>
        rw [hs] at hc
        simp only [List.mem_singleton] at hc
        subst hc
        simpa using fun e => ha e.symm
      | cons l ls =>
        rw [hs] at hc ih
        rcases List.mem_cons.1 hc with rfl | hc
        · intro hm
          rcases List.mem_cons.1 hm with e | hm
          · exact ha e.symm
          · exact ih l (by simp) hm
        · exact ih c (by simp [hc])

/-- One or two slashes, then the names. -/
def pathOf (sl : Text) (ns : List Text) : Text := sl ++ ['/'].intercalate ns

def IsSlashes (sl : Text) : Prop := sl = lit "/" ∨ sl = lit "//"

theorem slashes_is (p : Text) : IsSlashes (slashes p) := by
  unfold slashes
  split
  · exact .inr rfl
  · exact .inl rfl

theorem split_pathOf {sl : Text} (hsl : IsSlashes sl) {ns : List Text} (h : ns ≠ []) (hn : ∀ n ∈ ns, '/' ∉ n) :
    ∃ es : List Text, (∀ e ∈ es, e = []) ∧ splitCh '/' (pathOf sl ns) = es ++ ns := by
  rcases hsl with rfl | rfl
  · refine ⟨[[]], by simp, ?_⟩
    show splitCh '/' ('/' :: ['/'].intercalate ns) = _
    rw [splitCh, if_pos rfl, split_intercalate h hn]
    rfl
  · refine ⟨[[], []], by simp, ?_⟩
    show splitCh '/' ('/' :: '/' :: ['/'].intercalate ns) = _
    rw [splitCh, if_pos rfl, splitCh, if_pos rfl, split_intercalate h hn]
    rfl

theorem namesOf_pathOf {sl : Text} (hsl : IsSlashes sl) {ns : List Text} (hn : ∀ n ∈ ns, Name n) : namesOf (pathOf sl ns) = ns := by
  by_cases h : ns = []
  · subst h
    rcases hsl with rfl | rfl <;> decide
  · obtain ⟨es, he, hs⟩ := split_pathOf hsl h fun n hn' => (hn n hn').2.1
    unfold namesOf
    rw [hs, List.filter_append]
    have h1 : es.filter (fun n => !n.isEmpty) = [] := by
      rw [List.filter_eq_nil_iff]
      intro e he'
      rw [he e he']
      simp
    have h2 : ns.filter (fun n => !n.isEmpty) = ns := by
      rw [List.filter_eq_self]
      intro n hn'
      simpa using (hn n hn').1
    rw [h1, h2, List.nil_append]

theorem intercalate_ends {ns : List Text} (h : ns ≠ []) (hn : ∀ n ∈ ns, Name n) (a : Text) :
    (lit "/").isSuffixOf (a ++ ['/'].intercalate ns) = false := by
  have key : ∃ b c, ['/'].intercalate ns = b ++ [c] ∧ c ≠ '/' := by
    induction ns with
    | nil => exact absurd rfl h
    | cons m ns ih =>
      cases ns with
      | nil =>
        have hm := hn m (by simp)
        refine ⟨m.dropLast, m.getLast hm.1, ?_, fun e => hm.2.1 (e ▸ List.getLast_mem hm.1)⟩
        simp [List.intercalate, List.dropLast_append_getLast]
      | cons k ns =>
        obtain ⟨b, c, hb, hc⟩ := ih (by simp) fun n hn' => hn n (by simp [hn'])
        exact ⟨m ++ '/' :: b, c, by rw [intercalate_cons (by simp), hb]; simp, hc⟩
  obtain ⟨b, c, hb, hc⟩ := key
  rw [Bool.eq_false_iff]
  intro hs
  have hs := List.isSuffixOf_iff_suffix.1 hs
  obtain ⟨x, hx⟩ := hs
  rw [hb, ← List.append_assoc] at hx
  have := (List.append_inj' hx rfl).2
  simp only [lit] at this
  exact hc (by injection this with e; exact e.symm)

theorem not_abs {n : Text} (hn : '/' ∉ n) : (lit "/").isPrefixOf n = false := by
  rw [Bool.eq_false_iff]
  intro h
  obtain ⟨x, hx⟩ := List.isPrefixOf_iff_prefix.1 h
  exact hn (by rw [← hx]; simp [lit])

theorem joinPath_pathOf {sl : Text} (hsl : IsSlashes sl) {ns : List Text} (hn : ∀ n ∈ ns, Name n) {n : Text} (h : '/' ∉ n) :
    joinPath (pathOf sl ns) n = pathOf sl (ns ++ [n]) := by
  unfold joinPath
  rw [if_neg (by rw [not_abs h]; simp)]
  by_cases hns : ns = []
  · subst hns
    rw [if_pos (by rcases hsl with rfl | rfl <;> decide)]
    simp [pathOf, List.intercalate]
  · rw [if_neg, pathOf, pathOf, intercalate_snoc hns]
    · simp [lit]
    · rw [pathOf, intercalate_ends hns hn]
      rcases hsl with rfl | rfl <;> simp [lit]

theorem pathChecked_pathOf {sl : Text} (hsl : IsSlashes sl) {ns : List Text} {f : Text} (hn : ∀ n ∈ ns, Name n) (hf : Name f) :
    pathChecked (pathOf sl (ns ++ [f])) = true ↔ InScope ns f := by
  have hsuf : ∀ s : Text, '/' ∉ s → (s <:+ pathOf sl (ns ++ [f]) ↔ s <:+ f) := by
    intro s hs
    have hp : ∃ a, pathOf sl (ns ++ [f]) = a ++ '/' :: f := by
      by_cases hns : ns = []
      · subst hns
        rcases hsl with rfl | rfl
        · exact ⟨[], by simp [pathOf, List.intercalate, lit]⟩
        · exact ⟨['/'], by simp [pathOf, List.intercalate, lit]⟩
      · exact ⟨sl ++ ['/'].intercalate ns, by rw [pathOf, intercalate_snoc hns]; simp⟩
    obtain ⟨a, ha⟩ := hp
    rw [ha]
    constructor
    · rintro ⟨x, hx⟩
      rcases List.append_eq_append_iff.1 hx with ⟨y, h1, h2⟩ | ⟨y, h1, h2⟩
      · cases y with
        | nil => exact absurd (by rw [h2]; simp) hs
        | cons c y =>
          have : '/' ∈ s := by rw [h2]; simp
          exact absurd this hs
      · cases y with
        | nil =>
          rw [List.nil_append] at h2
          exact absurd (by rw [← h2]; simp) hs
        | cons c y =>
          injection h2 with _ h2
          exact ⟨y, h2.symm⟩
    · rintro ⟨x, hx⟩
      exact ⟨a ++ '/' :: x, by rw [← hx]; simp⟩
  obtain ⟨es, he, hsp⟩ := split_pathOf hsl (ns := ns ++ [f]) (by simp) (fun n h => by
    rcases List.mem_append.1 h with h | h
    · exact (hn n h).2.1
    · rw [List.mem_singleton.1 h]; exact hf.2.1)
  unfold pathChecked InScope
  rw [hsp, ← List.append_assoc, List.dropLast_concat, Bool.and_eq_true, List.any_eq_true, Bool.not_eq_true', List.any_eq_false]
  constructor
  · rintro ⟨⟨s, hs, h⟩, h2⟩
    have hss : '/' ∉ s := by
      clear h
      revert s; decide
    refine ⟨⟨s, hs, (hsuf s hss).1 (List.isSuffixOf_iff_suffix.1 h)⟩, fun n hn' hh => h2 n (by simp [hn']) ?_⟩
    rw [Bool.or_eq_true]
    rcases hh with hh | hh
    · exact .inr (List.isPrefixOf_iff_prefix.2 hh)
    · exact .inl (List.isPrefixOf_iff_prefix.2 hh)
  · rintro ⟨⟨s, hs, h⟩, h2⟩
    have hss : '/' ∉ s := by
      clear h
      revert s; decide
    refine ⟨⟨s, hs, List.isSuffixOf_iff_suffix.2 ((hsuf s hss).2 h)⟩, fun n hn' hh => ?_⟩
    rcases List.mem_append.1 hn' with hn' | hn'
    · rw [he n hn'] at hh
      revert hh; decide
    · refine h2 n hn' ?_
      rw [Bool.or_eq_true] at hh
      rcases hh with hh | hh
      · exact .inr (List.isPrefixOf_iff_prefix.1 hh)
      · exact .inl (List.isPrefixOf_iff_prefix.1 hh)

theorem resolve_names {cwd : List Text} (hc : ∀ n ∈ cwd, Name n) (arg : Text) : ∀ n ∈ resolve cwd arg, Name n := by
  unfold resolve
  have hs := split_no_sep (sep := '/') arg
  generalize splitCh '/' arg = cs at hs
  have h0 : ∀ n ∈ (if arg.head? = some '/' then [] else cwd), Name n := by
    split
    · simp
    · exact hc
  generalize (if arg.head? = some '/' then [] else cwd) = acc at h0
  induction cs generalizing acc with
  | nil => exact h0
  | cons c cs ih =>
    rw [List.foldl_cons]
    apply ih fun x hx => hs x (by simp [hx])
    intro n hn
    split at hn
    · exact h0 n hn
    · rename_i h1
      split at hn
      · exact h0 n (List.dropLast_subset _ hn)
      · rename_i h2
        rcases List.mem_append.1 hn with hn | hn
        · exact h0 n hn
        · rw [List.mem_singleton.1 hn]
          exact ⟨fun e => h1 (.inl e), hs c (by simp), fun e => h1 (.inr e), h2⟩

theorem normStep_eq : normStep = fun here n =>
    if n = [] ∨ n = lit "." then here else if n = lit ".." then here.dropLast else here ++ [n] := by
  funext here n
  unfold normStep
  by_cases h : n = [] ∨ n = lit "."
  · rw [if_pos h, if_pos (by simpa using h)]
  · rw [if_neg h, if_neg (by simpa using h)]

theorem foldl_names {cs acc : List Text} (hc : ∀ n ∈ cs, Name n) : cs.foldl normStep acc = acc ++ cs := by
  induction cs generalizing acc with
  | nil => simp
  | cons c cs ih =>
    have h := hc c (by simp)
    rw [List.foldl_cons, ih fun n hn => hc n (by simp [hn]), normStep, if_neg, if_neg h.2.2.2]
    · simp
    · simp [h.1, h.2.2.1]

theorem absPath_eq {cwd : List Text} (hc : ∀ n ∈ cwd, Name n) (arg : Text) :
    ∃ sl, IsSlashes sl ∧ absPath (pathText cwd) arg = pathOf sl (resolve cwd arg) := by
  unfold absPath
  simp only
  refine ⟨slashes (if (lit "/").isPrefixOf arg = true then arg else joinPath (pathText cwd) arg), slashes_is _, ?_⟩
  unfold pathOf
  congr 2
  unfold resolve
  rw [← normStep_eq]
  cases arg with
  | nil =>
    show (splitCh '/' (joinPath (pathOf (lit "/") cwd) [])).foldl normStep [] = [[]].foldl normStep cwd
    rw [joinPath_pathOf (.inl rfl) hc (by simp)]
    obtain ⟨es, he, hs⟩ : ∃ es : List Text, (∀ e ∈ es, e = []) ∧ splitCh '/' (pathOf (lit "/") (cwd ++ [[]])) = es ++ (cwd ++ [[]]) :=
      split_pathOf (.inl rfl) (by simp) (fun n h => by
        rcases List.mem_append.1 h with h | h
        · exact (hc n h).2.1
        · rw [List.mem_singleton.1 h]; simp)
    rw [hs, List.foldl_append, List.foldl_append]
    have h0 : es.foldl normStep [] = [] := by
      clear hs
      induction es with
      | nil => rfl
      | cons e es ih => rw [List.foldl_cons, he e (by simp)]; exact ih fun x hx => he x (by simp [hx])
    rw [h0, foldl_names hc, List.nil_append]
  | cons c t =>
    by_cases hcs : c = '/'
    · subst hcs
      rw [if_pos (by simp [lit]), if_pos (by simp)]
    · have hpre : (lit "/").isPrefixOf (c :: t) = false := by
        rw [Bool.eq_false_iff]
        intro h
        obtain ⟨x, hx⟩ := List.isPrefixOf_iff_prefix.1 h
        injection hx with h1 h2
        exact hcs h1.symm
      rw [if_neg (by rw [hpre]; simp), if_neg (by simpa using hcs)]
      have hj : ∃ es : List Text, (∀ e ∈ es, e = []) ∧
          splitCh '/' (joinPath (pathText cwd) (c :: t)) = es ++ (cwd ++ splitCh '/' (c :: t)) := by
        unfold joinPath
        rw [if_neg (by rw [hpre]; simp)]
        by_cases hns : cwd = []
        · subst hns
          refine ⟨[[]], by simp, ?_⟩
          rw [if_pos (by decide)]
          show splitCh '/' ('/' :: (c :: t)) = _
          rw [splitCh, if_pos rfl]
          rfl
        · refine ⟨[[]], by simp, ?_⟩
          have hend := intercalate_ends hns hc (lit "/")
          rw [if_neg (by
            show ¬ (_ || (lit "/").isSuffixOf (lit "/" ++ ['/'].intercalate cwd)) = true
            rw [hend]
            simp [pathText])]
          have : pathText cwd ++ lit "/" ++ (c :: t) = [] ++ '/' :: (['/'].intercalate cwd ++ '/' :: (c :: t)) := by
            simp [pathText, lit]
          rw [this, splitCh_append (by simp)]
          show _ :: _ = [] :: (cwd ++ _)
          congr 1
          have hn : ∀ n ∈ cwd, '/' ∉ n := fun n h => (hc n h).2.1
          clear hend this hc
          induction cwd with
          | nil => exact absurd rfl hns
          | cons m ns ih =>
            cases ns with
            | nil =>
              rw [show ['/'].intercalate [m] = m by simp [List.intercalate], splitCh_append (hn m (by simp))]
              rfl
            | cons k ns =>
              rw [intercalate_cons (by simp), List.append_assoc, List.cons_append, splitCh_append (hn m (by simp)),
                ih (by simp) fun n h => hn n (by simp [h])]
              rfl
      obtain ⟨es, he, hs⟩ := hj
      rw [hs, List.foldl_append, List.foldl_append]
      have h0 : es.foldl normStep [] = [] := by
        clear hs
        induction es with
        | nil => rfl
        | cons e es ih => rw [List.foldl_cons, he e (by simp)]; exact ih fun x hx => he x (by simp [hx])
      rw [h0, foldl_names hc, List.nil_append]

/-! ### Disks -/

theorem get_cons (d : Dir) (n : Text) (ns : List Text) : d.get (n :: ns) = match d.find n with
    | none => none
    | some (.dir s) => s.get ns
    | some (.file t) => if ns = [] then some (.file t) else none := rfl

theorem find_name {d : Dir} (hd : d.Ok) {n : Text} {e : Entry} (h : d.find n = some e) : Name n ∧ ∀ s, e = .dir s → s.Ok := by
  induction d with
  | nil => cases h
  | file m t r ih =>
    rw [Dir.find] at h
    split at h
    · rename_i hm
      rw [← hm]
      cases h
      exact ⟨hd.1, by simp⟩
    · exact ih hd.2.2 h
  | dir m s r ihs ihr =>
    rw [Dir.find] at h
    split at h
    · rename_i hm
      rw [← hm]
      cases h
      refine ⟨hd.1, ?_⟩
      intro s' hs'
      cases hs'
      exact hd.2.2.1
    · exact ihr hd.2.2.2 h

theorem get_names {ns : List Text} {d : Dir} (hd : d.Ok) {e : Entry} (h : d.get ns = some e) :
    (∀ n ∈ ns, Name n) ∧ ∀ s, e = .dir s → s.Ok := by
  induction ns generalizing d with
  | nil =>
    cases h
    refine ⟨by simp, ?_⟩
    intro s hs
    cases hs
    exact hd
  | cons n ns ih =>
    rw [get_cons] at h
    cases hf : d.find n with
    | none => rw [hf] at h; cases h
    | some x =>
      rw [hf] at h
      obtain ⟨h1, h2⟩ := find_name hd hf
      cases x with
      | dir s =>
        obtain ⟨h3, h4⟩ := ih (h2 s rfl) h
        exact ⟨by simpa using ⟨h1, h3⟩, h4⟩
      | file t =>
        simp only at h
        split at h
        · rename_i hns
          subst hns
          cases h
          exact ⟨by simpa using h1, by simp⟩
        · cases h

theorem get_append (d : Dir) (ns ms : List Text) (hm : ms ≠ []) : d.get (ns ++ ms) = match d.get ns with
    | some (.dir s) => s.get ms
    | _ => none := by
  induction ns generalizing d with
  | nil => rfl
  | cons n ns ih =>
    rw [List.cons_append, get_cons, get_cons]
    cases hf : d.find n with
    | none => rfl
    | some x =>
      cases x with
      | dir s => exact ih s
      | file t =>
        simp only
        rw [if_neg (by simp [hm])]
        split
        · rename_i h
          split at h
          · cases h
          · cases h
        · rfl

theorem mem_fileNames {d : Dir} (hd : d.Ok) (f : Text) : f ∈ d.fileNames ↔ ∃ t, d.find f = some (.file t) := by
  induction d with
  | nil => simp [Dir.fileNames, Dir.find]
  | file m t r ih =>
    rw [Dir.fileNames, Dir.find, List.mem_cons, ih hd.2.2]
    by_cases h : m = f
    · simp [h]
    · rw [if_neg h]
      simp [Ne.symm h]
  | dir m s r ihs ihr =>
    rw [Dir.fileNames, Dir.find, ihr hd.2.2.2]
    by_cases h : m = f
    · subst h
      rw [if_pos rfl, hd.2.1]
      simp
    · rw [if_neg h]

theorem mem_walkSubs {sl : Text} (hsl : IsSlashes sl) {d : Dir} (hd : d.Ok) {ns : List Text} (hn : ∀ n ∈ ns, Name n) (p : Text) :
    p ∈ d.walkSubs (pathOf sl ns) ↔ ∃ m ms f t, d.get (m :: (ms ++ [f])) = some (.file t) ∧
      p = pathOf sl (ns ++ m :: (ms ++ [f])) := by
  induction d generalizing ns with
  | nil => simp [Dir.walkSubs, get_cons, Dir.find]
  | file k u r ih =>
    rw [Dir.walkSubs, ih hd.2.2 hn]
    apply exists_congr; intro m
    apply exists_congr; intro ms
    apply exists_congr; intro f
    apply exists_congr; intro t
    rw [get_cons, get_cons, Dir.find]
    by_cases h : k = m
    · subst h
      rw [if_pos rfl, hd.2.1]
      simp
    · rw [if_neg h]
  | dir k s r ihs ihr =>
    have hk := hd.1
    rw [Dir.walkSubs, joinPath_pathOf hsl hn hk.2.1, List.mem_append, List.mem_append, ihr hd.2.2.2 hn,
      ihs hd.2.2.1 (ns := ns ++ [k]) (by
        intro n h
        rcases List.mem_append.1 h with h | h
        · exact hn n h
        · rw [List.mem_singleton.1 h]; exact hk)]
    have hn' : ∀ n ∈ ns ++ [k], Name n := by
      intro n h
      rcases List.mem_append.1 h with h | h
      · exact hn n h
      · rw [List.mem_singleton.1 h]; exact hk
    constructor
    · rintro ((h | ⟨m, ms, f, t, h1, h2⟩) | ⟨m, ms, f, t, h1, h2⟩)
      · obtain ⟨f, hf, rfl⟩ := List.mem_map.1 h
        obtain ⟨t, ht⟩ := (mem_fileNames hd.2.2.1 f).1 hf
        refine ⟨k, [], f, t, ?_, ?_⟩
        · rw [get_cons, Dir.find, if_pos rfl]
          show s.get [f] = _
          rw [get_cons, ht]
          rfl
        · rw [joinPath_pathOf hsl hn' (find_name hd.2.2.1 ht).1.2.1]
          simp
      · refine ⟨k, m :: ms, f, t, ?_, ?_⟩
        · rw [get_cons, Dir.find, if_pos rfl]
          exact h1
        · rw [h2]
          simp
      · refine ⟨m, ms, f, t, ?_, h2⟩
        rw [get_cons, Dir.find, if_neg]
        · exact h1
        · rintro rfl
          rw [get_cons, hd.2.1] at h1
          cases h1
    · rintro ⟨m, ms, f, t, h1, h2⟩
      rw [get_cons, Dir.find] at h1
      by_cases h : k = m
      · subst h
        rw [if_pos rfl] at h1
        replace h1 : s.get (ms ++ [f]) = some (.file t) := h1
        left
        cases ms with
        | nil =>
          left
          have hf : s.find f = some (.file t) := by
            rw [List.nil_append, get_cons] at h1
            cases hf : s.find f with
            | none => rw [hf] at h1; cases h1
            | some x =>
              cases x with
              | dir _ => rw [hf] at h1; cases h1
              | file t' => rw [hf] at h1; exact h1
          refine List.mem_map.2 ⟨f, (mem_fileNames hd.2.2.1 f).2 ⟨t, hf⟩, ?_⟩
          rw [joinPath_pathOf hsl hn' (find_name hd.2.2.1 hf).1.2.1, h2]
          simp
        | cons m ms =>
          right
          exact ⟨m, ms, f, t, h1, by rw [h2]; simp⟩
      · rw [if_neg h] at h1
        right
        exact ⟨m, ms, f, t, h1, h2⟩

theorem mem_walk {sl : Text} (hsl : IsSlashes sl) {d : Dir} (hd : d.Ok) {ns : List Text} (hn : ∀ n ∈ ns, Name n) (p : Text) :
    p ∈ d.walk (pathOf sl ns) ↔ ∃ ms f t, d.get (ms ++ [f]) = some (.file t) ∧ p = pathOf sl (ns ++ (ms ++ [f])) := by
  rw [Dir.walk, List.mem_append, mem_walkSubs hsl hd hn]
  constructor
  · rintro (h | ⟨m, ms, f, t, h1, h2⟩)
    · obtain ⟨f, hf, rfl⟩ := List.mem_map.1 h
      obtain ⟨t, ht⟩ := (mem_fileNames hd f).1 hf
      refine ⟨[], f, t, ?_, ?_⟩
      · rw [List.nil_append, get_cons, ht]
        rfl
      · rw [joinPath_pathOf hsl hn (find_name hd ht).1.2.1]
        simp
    · exact ⟨m :: ms, f, t, h1, h2⟩
  · rintro ⟨ms, f, t, h1, h2⟩
    cases ms with
    | nil =>
      left
      have hf : d.find f = some (.file t) := by
        rw [List.nil_append, get_cons] at h1
        cases hf : d.find f with
        | none => rw [hf] at h1; cases h1
        | some x =>
          cases x with
          | dir _ => rw [hf] at h1; cases h1
          | file t' => rw [hf] at h1; exact h1
      refine List.mem_map.2 ⟨f, (mem_fileNames hd f).2 ⟨t, hf⟩, ?_⟩
      rw [joinPath_pathOf hsl hn (find_name hd hf).1.2.1, h2]
      simp
    | cons m ms => exact .inr ⟨m, ms, f, t, h1, h2⟩

theorem text_eq {d : Dir} {ns : List Text} {t : Text} : d.text ns = some t ↔ d.get ns = some (.file t) := by
  unfold Dir.text
  cases h : d.get ns with
  | none => simp
  | some e =>
    cases e with
    | file u => simp
    | dir s => simp

/-- The files that a source leads to. -/
theorem mem_sourceFiles {sl : Text} (hsl : IsSlashes sl) {disk : Dir} (hd : disk.Ok) {ns : List Text} (hn : ∀ n ∈ ns, Name n) (p : Text) :
    p ∈ disk.sourceFiles (pathOf sl ns) ↔ ∃ ms t, disk.text ms = some t ∧ ns <+: ms ∧ p = pathOf sl ms := by
  unfold Dir.sourceFiles
  rw [namesOf_pathOf hsl hn]
  cases h : disk.get ns with
  | none =>
    simp only [List.not_mem_nil, false_iff, not_exists, not_and]
    rintro ms t ht ⟨x, rfl⟩ _
    rw [text_eq] at ht
    cases x with
    | nil => rw [List.append_nil, h] at ht; cases ht
    | cons y x => rw [get_append _ _ _ (by simp), h] at ht; cases ht
  | some e =>
    cases e with
    | file t =>
      simp only [List.mem_singleton]
      constructor
      · rintro rfl
        exact ⟨ns, t, text_eq.2 h, List.prefix_refl _, rfl⟩
      · rintro ⟨ms, t, ht, ⟨x, rfl⟩, rfl⟩
        rw [text_eq] at ht
        cases x with
        | nil => rw [List.append_nil]
        | cons y x => rw [get_append _ _ _ (by simp), h] at ht; cases ht
    | dir s =>
      simp only
      rw [mem_walk hsl ((get_names hd h).2 s rfl) hn]
      constructor
      · rintro ⟨ms, f, t, h1, rfl⟩
        refine ⟨ns ++ (ms ++ [f]), t, ?_, List.prefix_append _ _, rfl⟩
        rw [text_eq, get_append _ _ _ (by simp), h]
        exact h1
      · rintro ⟨ms, t, ht, ⟨x, rfl⟩, rfl⟩
        rw [text_eq] at ht
        have hx : x ≠ [] := by
          rintro rfl
          rw [List.append_nil, h] at ht
          cases ht
        rw [get_append _ _ _ hx, h] at ht
        refine ⟨x.dropLast, x.getLast hx, t, ?_, ?_⟩
        · rw [List.dropLast_append_getLast]; exact ht
        · rw [List.dropLast_append_getLast]

theorem needsFix_iff {year : Nat} {sl : Text} (hsl : IsSlashes sl) {disk : Dir} (hd : disk.Ok) {ns : List Text} {f t : Text}
    (ht : disk.text (ns ++ [f]) = some t) :
    disk.needsFix year (pathOf sl (ns ++ [f])) = true ↔ InScope ns f ∧ ¬ Headed year t := by
  have hg := text_eq.1 ht
  have hn := (get_names hd hg).1
  unfold Dir.needsFix
  rw [namesOf_pathOf hsl hn, hg, Bool.and_eq_true, pathChecked_pathOf hsl (fun n h => hn n (by simp [h])) (hn f (by simp)),
    ← headed_iff, Bool.not_eq_false]

/-! ### `check` -/

/-- **C84.** `check` changes nothing, and its exit status is 0 exactly if every Python file that an argument names, or that lies
below a directory that an argument names, has the header, apart from files with a hidden directory in their absolute path. -/
theorem C84_check (year : Nat) {cwd : List Text} (hc : ∀ n ∈ cwd, Name n) {disk : Dir} (hd : disk.Ok) (prog : Text) (args : List Text) :
    ∃ status, headersMain year (pathText cwd) (prog :: lit "check" :: args) disk = .ok (disk, status) ∧ (status = 0 ∨ status = 1) ∧
      (status = 0 ↔ ∀ ns f t, disk.text (ns ++ [f]) = some t → Covered cwd args ns f → InScope ns f → Headed year t) := by
  refine ⟨if checkDisk year (args.map (absPath (pathText cwd))) disk = [] then 0 else 1, rfl, ?_, ?_⟩
  · split <;> simp
  · have h01 : ∀ P : Prop, [Decidable P] → ((if P then 0 else 1 : Nat) = 0 ↔ P) := by
      intro P _
      split <;> simp [*]
    rw [h01, checkDisk, List.flatMap_eq_nil_iff]
    constructor
    · rintro h ns f t ht ⟨a, ha, hpre⟩ hs
      by_contra hh
      obtain ⟨sl, hsl, he⟩ := absPath_eq hc a
      have := h _ (List.mem_map.2 ⟨a, ha, rfl⟩)
      rw [List.filter_eq_nil_iff] at this
      refine this (pathOf sl (ns ++ [f])) ?_ ((needsFix_iff hsl hd ht).2 ⟨hs, hh⟩)
      rw [he, mem_sourceFiles hsl hd (resolve_names hc a)]
      exact ⟨_, t, ht, hpre, rfl⟩
    · intro h s hs
      obtain ⟨a, ha, rfl⟩ := List.mem_map.1 hs
      obtain ⟨sl, hsl, he⟩ := absPath_eq hc a
      rw [List.filter_eq_nil_iff]
      intro p hp hfix
      rw [he, mem_sourceFiles hsl hd (resolve_names hc a)] at hp
      obtain ⟨ms, t, ht, hpre, rfl⟩ := hp
      have hne : ms ≠ [] := by
        rintro rfl
        rw [text_eq] at ht
        cases ht
      obtain ⟨ns, f, rfl⟩ : ∃ ns f, ms = ns ++ [f] := ⟨_, _, (List.dropLast_append_getLast hne).symm⟩
      obtain ⟨h1, h2⟩ := (needsFix_iff hsl hd ht).1 hfix
      exact h2 (h ns f t ht ⟨a, ha, hpre⟩ h1)

/-! ### `fix` -/

/-- The same entries, all files empty. -/
def Dir.shape : Dir → Dir
  | .nil => .nil
  | .file n _ r => .file n [] r.shape
  | .dir n s r => .dir n s.shape r.shape

def Entry.shape : Entry → Entry
  | .file _ => .file []
  | .dir d => .dir d.shape

theorem shape_put (d : Dir) (ns : List Text) (u : Text) : (d.put ns u).shape = d.shape := by
  induction d generalizing ns with
  | nil => rfl
  | file n t r ih =>
    rw [Dir.put]
    split
    · rfl
    · rw [Dir.shape, ih]; rfl
  | dir n s r ihs ihr =>
    rw [Dir.put]
    split
    · rw [Dir.shape, ihs]; rfl
    · rw [Dir.shape, ihr]; rfl

theorem fileNames_shape (d : Dir) : d.shape.fileNames = d.fileNames := by
  induction d with
  | nil => rfl
  | file n t r ih => rw [Dir.shape, Dir.fileNames, ih]; rfl
  | dir n s r ihs ihr => rw [Dir.shape, Dir.fileNames, ihr]; rfl

theorem walkSubs_shape (d : Dir) (root : Text) : d.shape.walkSubs root = d.walkSubs root := by
  induction d generalizing root with
  | nil => rfl
  | file n t r ih => rw [Dir.shape, Dir.walkSubs, ih]; rfl
  | dir n s r ihs ihr => rw [Dir.shape, Dir.walkSubs, ihs, ihr, fileNames_shape]; rfl

theorem find_shape (d : Dir) (n : Text) : d.shape.find n = (d.find n).map Entry.shape := by
  induction d with
  | nil => rfl
  | file m t r ih =>
    rw [Dir.shape, Dir.find, Dir.find]
    split
    · rfl
    · exact ih
  | dir m s r ihs ihr =>
    rw [Dir.shape, Dir.find, Dir.find]
    split
    · rfl
    · exact ihr

theorem get_shape (d : Dir) (ns : List Text) : d.shape.get ns = (d.get ns).map Entry.shape := by
  induction ns generalizing d with
  | nil => rfl
  | cons n ns ih =>
    rw [get_cons, get_cons, find_shape]
    cases d.find n with
    | none => rfl
    | some e =>
      cases e with
      | dir s => exact ih s
      | file t =>
        simp only [Option.map_some, Entry.shape]
        split <;> rfl

theorem ok_shape (d : Dir) : d.shape.Ok ↔ d.Ok := by
  induction d with
  | nil => rfl
  | file n t r ih => rw [Dir.shape, Dir.Ok, Dir.Ok, ih, find_shape, Option.map_eq_none_iff]
  | dir n s r ihs ihr => rw [Dir.shape, Dir.Ok, Dir.Ok, ihs, ihr, find_shape, Option.map_eq_none_iff]

theorem sourceFiles_shape (d : Dir) (s : Text) : d.shape.sourceFiles s = d.sourceFiles s := by
  unfold Dir.sourceFiles
  rw [get_shape]
  cases d.get (namesOf s) with
  | none => rfl
  | some e =>
    cases e with
    | file t => rfl
    | dir r =>
      show r.shape.walk s = r.walk s
      rw [Dir.walk, Dir.walk, fileNames_shape, walkSubs_shape]

theorem isDir_shape (d : Dir) (ns : List Text) : d.shape.isDir ns = d.isDir ns := by
  unfold Dir.isDir
  rw [get_shape]
  cases d.get ns with
  | none => rfl
  | some e => cases e <;> rfl

theorem text_cons (d : Dir) (n : Text) (ns : List Text) : d.text (n :: ns) = match d.find n with
    | none => none
    | some (.dir s) => s.text ns
    | some (.file t) => if ns = [] then some t else none := by
  unfold Dir.text
  rw [get_cons]
  cases d.find n with
  | none => rfl
  | some e =>
    cases e with
    | dir s => rfl
    | file t =>
      simp only
      split <;> simp_all

theorem text_put {d : Dir} {ns : List Text} {t : Text} (h : d.text ns = some t) (u : Text) (ms : List Text) :
    (d.put ns u).text ms = if ms = ns then some u else d.text ms := by
  cases ns with
  | nil => cases h
  | cons n ns =>
    cases ms with
    | nil =>
      rw [if_neg (by simp)]
      rfl
    | cons m ms =>
      induction d generalizing n ns m ms with
      | nil => cases h
      | file k v r ih =>
        rw [text_cons, Dir.find] at h
        rw [Dir.put]
        by_cases hk : k = n
        · subst hk
          rw [if_pos rfl] at h
          simp only at h
          have hns : ns = [] := by
            by_contra hns
            rw [if_neg hns] at h
            cases h
          subst hns
          rw [if_pos rfl, text_cons, text_cons, Dir.find, Dir.find]
          by_cases hm : k = m
          · subst hm
            rw [if_pos rfl, if_pos rfl]
            simp only
            by_cases hms : ms = []
            · simp [hms]
            · rw [if_neg hms, if_neg hms, if_neg (by simp [hms])]
          · rw [if_neg hm, if_neg hm, if_neg (by simp [Ne.symm hm])]
        · rw [if_neg hk] at h
          have hr : r.text (n :: ns) = some t := by rw [text_cons]; exact h
          rw [if_neg (by simp [Ne.symm hk])]
          by_cases hm : k = m
          · subst hm
            rw [text_cons, text_cons, Dir.find, Dir.find, if_pos rfl, if_pos rfl, if_neg (by simp [hk])]
          · have := ih n ns hr m ms
            rw [text_cons, text_cons (r : Dir)] at this
            rw [text_cons, text_cons, Dir.find, Dir.find, if_neg hm, if_neg hm]
            exact this
      | dir k s r ihs ihr =>
        rw [text_cons, Dir.find] at h
        rw [Dir.put]
        by_cases hk : k = n
        · subst hk
          rw [if_pos rfl] at h
          simp only at h
          rw [if_pos (show (k :: ns).head? = some k from rfl), text_cons, text_cons, Dir.find, Dir.find]
          by_cases hm : k = m
          · subst hm
            rw [if_pos rfl, if_pos rfl]
            simp only [List.tail_cons, List.cons.injEq, true_and]
            cases ns with
            | nil => cases h
            | cons n' ns' =>
              cases ms with
              | nil => rw [if_neg (by simp)]; rfl
              | cons m' ms' => exact ihs n' ns' h m' ms'
          · rw [if_neg hm, if_neg hm, if_neg (by simp [Ne.symm hm])]
        · rw [if_neg hk] at h
          have hr : r.text (n :: ns) = some t := by rw [text_cons]; exact h
          rw [if_neg (by simp [Ne.symm hk])]
          by_cases hm : k = m
          · subst hm
            rw [text_cons, text_cons, Dir.find, Dir.find, if_pos rfl, if_pos rfl, if_neg (by simp [hk])]
          · have := ihr n ns hr m ms
            rw [text_cons, text_cons (r : Dir)] at this
            rw [text_cons, text_cons, Dir.find, Dir.find, if_neg hm, if_neg hm]
            exact this

/-- One file. -/
def fixStep (year : Nat) (disk : Dir) (p : Text) : Dir := if disk.needsFix year p then disk.addHeader year p else disk

theorem needsFix_text (year : Nat) (disk : Dir) (p : Text) :
    disk.needsFix year p = (pathChecked p && match disk.text (namesOf p) with
      | some t => needsFixLines (header year) (fileLines t)
      | none => false) := by
  unfold Dir.needsFix Dir.text
  cases disk.get (namesOf p) with
  | none => rfl
  | some e => cases e <;> rfl

theorem shape_fixStep (year : Nat) (disk : Dir) (p : Text) : (fixStep year disk p).shape = disk.shape := by
  unfold fixStep
  split
  · unfold Dir.addHeader
    split
    · exact shape_put ..
    · rfl
  · rfl

theorem text_fixStep (year : Nat) (disk : Dir) (p : Text) (ns : List Text) :
    (fixStep year disk p).text ns = if ns = namesOf p ∧ disk.needsFix year p = true then (disk.text ns).map (addHeader year)
      else disk.text ns := by
  unfold fixStep
  by_cases h : disk.needsFix year p = true
  · rw [if_pos h]
    have h' := h
    rw [needsFix_text, Bool.and_eq_true] at h'
    cases ht : disk.text (namesOf p) with
    | none => rw [ht] at h'; simp at h'
    | some t =>
      have hg := text_eq.1 ht
      unfold Dir.addHeader
      rw [hg]
      simp only
      rw [text_put ht]
      by_cases hns : ns = namesOf p
      · rw [if_pos hns, if_pos ⟨hns, h⟩, hns, ht]
        rfl
      · rw [if_neg hns, if_neg fun hh => hns hh.1]
  · rw [if_neg h, if_neg fun hh => h hh.2]

theorem text_fold (year : Nat) (ps : List Text) (disk : Dir) (ns : List Text) :
    (ps.foldl (fixStep year) disk).text ns =
      if ∃ p ∈ ps, namesOf p = ns ∧ disk.needsFix year p = true then (disk.text ns).map (addHeader year) else disk.text ns := by
  induction ps generalizing disk with
  | nil => simp
  | cons q ps ih =>
    rw [List.foldl_cons, ih, text_fixStep]
    by_cases hq : ns = namesOf q ∧ disk.needsFix year q = true
    · rw [if_pos hq, if_pos (c := ∃ p ∈ q :: ps, _) ⟨q, by simp, hq.1.symm, hq.2⟩, if_neg]
      rintro ⟨p, hp, hpn, hfix⟩
      rw [needsFix_text, hpn, text_fixStep, if_pos hq] at hfix
      cases ht : disk.text ns with
      | none => rw [ht] at hfix; simp at hfix
      | some t =>
        rw [ht] at hfix
        simp [needsFix_addHeader] at hfix
    · rw [if_neg hq]
      have key : ∀ p, namesOf p = ns → ((fixStep year disk q).needsFix year p = disk.needsFix year p) := by
        intro p hp
        rw [needsFix_text, needsFix_text, hp, text_fixStep, if_neg hq]
      have : (∃ p ∈ ps, namesOf p = ns ∧ (fixStep year disk q).needsFix year p = true) ↔
          ∃ p ∈ q :: ps, namesOf p = ns ∧ disk.needsFix year p = true := by
        constructor
        · rintro ⟨p, hp, hn, hf⟩
          exact ⟨p, by simp [hp], hn, by rw [← key p hn]; exact hf⟩
        · rintro ⟨p, hp, hn, hf⟩
          rcases List.mem_cons.1 hp with rfl | hp
          · exact absurd ⟨hn.symm, hf⟩ hq
          · exact ⟨p, hp, hn, by rw [key p hn]; exact hf⟩
      simp only [this]

theorem shape_fold (year : Nat) (ps : List Text) (disk : Dir) : (ps.foldl (fixStep year) disk).shape = disk.shape := by
  induction ps generalizing disk with
  | nil => rfl
  | cons q ps ih => rw [List.foldl_cons, ih, shape_fixStep]

theorem fixDisk_eq (year : Nat) (sources : List Text) (disk : Dir) :
    fixDisk year sources disk = (sources.flatMap disk.sourceFiles).foldl (fixStep year) disk := by
  unfold fixDisk
  have key : ∀ d : Dir, d.shape = disk.shape → sources.foldl (fun disk s =>
      (disk.sourceFiles s).foldl (fixStep year) disk) d = (sources.flatMap disk.sourceFiles).foldl (fixStep year) d := by
    induction sources with
    | nil => intro d _; rfl
    | cons s ss ih =>
      intro d h
      rw [List.foldl_cons, List.flatMap_cons, List.foldl_append]
      have : d.sourceFiles s = disk.sourceFiles s := by rw [← sourceFiles_shape, h, sourceFiles_shape]
      rw [this]
      exact ih _ (by rw [shape_fold, h])
  exact key disk rfl

open Classical in
theorem text_fixDisk (year : Nat) {cwd : List Text} (hc : ∀ n ∈ cwd, Name n) {disk : Dir} (hd : disk.Ok) (args : List Text)
    (ns : List Text) (f t : Text) (ht : disk.text (ns ++ [f]) = some t) :
    (fixDisk year (args.map (absPath (pathText cwd))) disk).text (ns ++ [f]) =
      some (if Covered cwd args ns f ∧ InScope ns f ∧ ¬ Headed year t then addHeader year t else t) := by
  rw [fixDisk_eq, text_fold, ht]
  have key : (∃ p ∈ (args.map (absPath (pathText cwd))).flatMap disk.sourceFiles,
      namesOf p = ns ++ [f] ∧ disk.needsFix year p = true) ↔ Covered cwd args ns f ∧ InScope ns f ∧ ¬ Headed year t := by
    constructor
    · rintro ⟨p, hp, hn, hfix⟩
      obtain ⟨s, hs, hp⟩ := List.mem_flatMap.1 hp
      obtain ⟨a, ha, rfl⟩ := List.mem_map.1 hs
      obtain ⟨sl, hsl, he⟩ := absPath_eq hc a
      rw [he, mem_sourceFiles hsl hd (resolve_names hc a)] at hp
      obtain ⟨ms, t', ht', hpre, rfl⟩ := hp
      rw [namesOf_pathOf hsl (get_names hd (text_eq.1 ht')).1] at hn
      subst hn
      exact ⟨⟨a, ha, hpre⟩, (needsFix_iff hsl hd ht).1 hfix⟩
    · rintro ⟨⟨a, ha, hpre⟩, h⟩
      obtain ⟨sl, hsl, he⟩ := absPath_eq hc a
      refine ⟨pathOf sl (ns ++ [f]), List.mem_flatMap.2 ⟨_, List.mem_map.2 ⟨a, ha, rfl⟩, ?_⟩,
        namesOf_pathOf hsl (get_names hd (text_eq.1 ht)).1, (needsFix_iff hsl hd ht).2 h⟩
      rw [he, mem_sourceFiles hsl hd (resolve_names hc a)]
      exact ⟨_, t, ht, hpre, rfl⟩
  by_cases h : Covered cwd args ns f ∧ InScope ns f ∧ ¬ Headed year t
  · rw [if_pos (key.2 h), if_pos h]
    rfl
  · rw [if_neg fun h' => h (key.1 h'), if_neg h]

theorem text_eq_of_shape {d d' : Dir} (h : d'.shape = d.shape) (ht : ∀ ns, d'.text ns = d.text ns) (hd : d.Ok) : d' = d := by
  induction d generalizing d' with
  | nil =>
    cases d' with
    | nil => rfl
    | file => cases h
    | dir => cases h
  | file n t r ih =>
    cases d' with
    | nil => cases h
    | dir => cases h
    | file n' t' r' =>
      simp only [Dir.shape, Dir.file.injEq, true_and] at h
      obtain ⟨rfl, h⟩ := h
      have h1 := ht [n']
      rw [text_cons, text_cons, Dir.find, Dir.find, if_pos rfl, if_pos rfl] at h1
      simp only [if_true, Option.some.injEq] at h1
      subst h1
      have hr' : r'.find n' = none := by
        have := hd.2.1
        rw [← Option.map_eq_none_iff (f := Entry.shape), ← find_shape, ← h, find_shape, Option.map_eq_none_iff] at this
        exact this
      rw [ih h (fun ns => ?_) hd.2.2]
      cases ns with
      | nil => rfl
      | cons m ms =>
        by_cases hm : n' = m
        · subst hm
          rw [text_cons, text_cons, hr', hd.2.1]
        · have := ht (m :: ms)
          rw [text_cons, text_cons, Dir.find, Dir.find, if_neg hm, if_neg hm] at this
          rw [text_cons, text_cons]
          exact this
  | dir n s r ihs ihr =>
    cases d' with
    | nil => cases h
    | file => cases h
    | dir n' s' r' =>
      simp only [Dir.shape, Dir.dir.injEq] at h
      obtain ⟨rfl, hs, h⟩ := h
      have hr' : r'.find n' = none := by
        have := hd.2.1
        rw [← Option.map_eq_none_iff (f := Entry.shape), ← find_shape, ← h, find_shape, Option.map_eq_none_iff] at this
        exact this
      rw [ihr h (fun ns => ?_) hd.2.2.2, ihs hs (fun ns => ?_) hd.2.2.1]
      · have := ht (n' :: ns)
        rw [text_cons, text_cons, Dir.find, Dir.find, if_pos rfl, if_pos rfl] at this
        exact this
      · cases ns with
        | nil => rfl
        | cons m ms =>
          by_cases hm : n' = m
          · subst hm
            rw [text_cons, text_cons, hr', hd.2.1]
          · have := ht (m :: ms)
            rw [text_cons, text_cons, Dir.find, Dir.find, if_neg hm, if_neg hm] at this
            rw [text_cons, text_cons]
            exact this

theorem headed_addHeader (year : Nat) (t : Text) : Headed year (addHeader year t) :=
  (headed_iff _ _).1 (needsFix_addHeader year t)

theorem text_none_of_shape {d d' : Dir} (h : d'.shape = d.shape) (ns : List Text) : d'.text ns = none ↔ d.text ns = none := by
  have : ∀ d : Dir, d.text ns = none ↔ d.shape.text ns = none := by
    intro d
    unfold Dir.text
    rw [get_shape]
    cases d.get ns with
    | none => rfl
    | some e => cases e <;> simp [Entry.shape]
  rw [this d', h, ← this d]

open Classical in
/-- **C84.** `fix` puts the header into exactly those files that `check` would complain about, once each, however many arguments
lead to a file. No file or directory appears or disappears. Afterwards `check` with the same arguments has exit status 0, and `fix`
changes nothing. -/
theorem C84_fix (year : Nat) {cwd : List Text} (hc : ∀ n ∈ cwd, Name n) {disk : Dir} (hd : disk.Ok) (prog : Text) (args : List Text) :
    ∃ disk' : Dir, headersMain year (pathText cwd) (prog :: lit "fix" :: args) disk = .ok (disk', 0) ∧
      (∀ ns, disk'.isDir ns = disk.isDir ns) ∧ (∀ ns, disk'.text ns = none ↔ disk.text ns = none) ∧
      (∀ ns f t, disk.text (ns ++ [f]) = some t → disk'.text (ns ++ [f]) =
        some (if Covered cwd args ns f ∧ InScope ns f ∧ ¬ Headed year t then addHeader year t else t)) ∧
      headersMain year (pathText cwd) (prog :: lit "check" :: args) disk' = .ok (disk', 0) ∧
      headersMain year (pathText cwd) (prog :: lit "fix" :: args) disk' = .ok (disk', 0) := by
  have hsh : (fixDisk year (args.map (absPath (pathText cwd))) disk).shape = disk.shape := by rw [fixDisk_eq, shape_fold]
  have ht := text_fixDisk year hc hd args
  have hn := fun ns => text_none_of_shape hsh ns
  have hd' : (fixDisk year (args.map (absPath (pathText cwd))) disk).Ok := by rw [← ok_shape, hsh, ok_shape]; exact hd
  have hcov : ∀ ns f t, (fixDisk year (args.map (absPath (pathText cwd))) disk).text (ns ++ [f]) = some t →
      Covered cwd args ns f → InScope ns f → Headed year t := by
    intro ns f t h1 h2 h3
    cases ho : disk.text (ns ++ [f]) with
    | none => rw [(hn _).2 ho] at h1; cases h1
    | some t0 =>
      rw [ht ns f t0 ho] at h1
      injection h1 with h1
      by_cases hh : Headed year t0
      · rw [if_neg (by simp [hh])] at h1
        rw [← h1]; exact hh
      · rw [if_pos ⟨h2, h3, hh⟩] at h1
        rw [← h1]; exact headed_addHeader year t0
  refine ⟨fixDisk year (args.map (absPath (pathText cwd))) disk, rfl, fun ns => ?_, hn, ht, ?_, ?_⟩
  · rw [← isDir_shape, hsh, isDir_shape]
  · obtain ⟨status, h1, h2, h3⟩ := C84_check year hc hd' prog args
    rw [h1, h3.2 hcov]
  · show Except.ok (fixDisk year (args.map (absPath (pathText cwd))) (fixDisk year (args.map (absPath (pathText cwd))) disk), 0) = _
    congr 2
    refine text_eq_of_shape (by rw [fixDisk_eq, shape_fold]) (fun ns => ?_) hd'
    cases ho : (fixDisk year (args.map (absPath (pathText cwd))) disk).text ns with
    | none =>
      rw [text_none_of_shape (d := fixDisk year (args.map (absPath (pathText cwd))) disk) (by rw [fixDisk_eq, shape_fold])]
      exact ho
    | some t =>
      have hne : ns ≠ [] := by
        rintro rfl
        rw [text_eq] at ho
        cases ho
      obtain ⟨ms, f, rfl⟩ : ∃ ms f, ns = ms ++ [f] := ⟨_, _, (List.dropLast_append_getLast hne).symm⟩
      rw [text_fixDisk year hc hd' args ms f t ho, if_neg]
      rintro ⟨h1, h2, h3⟩
      exact h3 (hcov ms f t ho h1 h2)

/-- **C84.** If the working directory is hidden or lies below a hidden directory, and no argument leads out of it, the script sees
no file at all: `check` has exit status 0 and `fix` changes nothing, whatever the files hold. -/
theorem C84_hidden (year : Nat) {cwd : List Text} (hc : ∀ n ∈ cwd, Name n) {disk : Dir} (hd : disk.Ok) (hcwd : disk.isDir cwd = true)
    (hh : ∃ n ∈ cwd, Hidden n) {args : List Text} (ha : ∀ a ∈ args, cwd <+: resolve cwd a) (prog : Text) :
    headersMain year (pathText cwd) (prog :: lit "check" :: args) disk = .ok (disk, 0) ∧
    headersMain year (pathText cwd) (prog :: lit "fix" :: args) disk = .ok (disk, 0) := by
  obtain ⟨n, hn, hh⟩ := hh
  have key : ∀ ns f t, disk.text (ns ++ [f]) = some t → Covered cwd args ns f → ¬ InScope ns f := by
    rintro ns f t ht ⟨a, ha', hpre⟩ hs
    have hp := (ha a ha').trans hpre
    rcases List.prefix_concat_iff.1 hp with rfl | hp
    · rw [text_eq] at ht
      unfold Dir.isDir at hcwd
      rw [ht] at hcwd
      cases hcwd
    · exact hs.2 n (hp.subset hn) hh
  obtain ⟨status, h1, h2, h3⟩ := C84_check year hc hd prog args
  rw [h3.2 fun ns f t ht hcov hs => absurd hs (key ns f t ht hcov)] at h1
  refine ⟨h1, ?_⟩
  show Except.ok (fixDisk year (args.map (absPath (pathText cwd))) disk, 0) = _
  congr 2
  refine text_eq_of_shape (by rw [fixDisk_eq, shape_fold]) (fun ns => ?_) hd
  cases ho : disk.text ns with
  | none =>
    rw [text_none_of_shape (d := disk) (by rw [fixDisk_eq, shape_fold])]
    exact ho
  | some t =>
    have hne : ns ≠ [] := by
      rintro rfl
      rw [text_eq] at ho
      cases ho
    obtain ⟨ms, f, rfl⟩ : ∃ ms f, ns = ms ++ [f] := ⟨_, _, (List.dropLast_append_getLast hne).symm⟩
    classical
    rw [text_fixDisk year hc hd args ms f t ho, if_neg]
    rintro ⟨h1, h2, h3⟩
    exact key ms f t ho h1 h2

/-- **C84.** An argument that leads to nothing (a misspelt name) is passed over in silence. -/
theorem C84_missing (year : Nat) {cwd : List Text} (hc : ∀ n ∈ cwd, Name n) {disk : Dir} (hd : disk.Ok) {a : Text}
    (ha : disk.text (resolve cwd a) = none ∧ disk.isDir (resolve cwd a) = false) (prog mode : Text) (args1 args2 : List Text) :
    headersMain year (pathText cwd) (prog :: mode :: (args1 ++ a :: args2)) disk =
      headersMain year (pathText cwd) (prog :: mode :: (args1 ++ args2)) disk := by
  have hs : disk.sourceFiles (absPath (pathText cwd) a) = [] := by
    obtain ⟨sl, hsl, he⟩ := absPath_eq hc a
    rw [he]
    unfold Dir.sourceFiles
    rw [namesOf_pathOf hsl (resolve_names hc a)]
    unfold Dir.text Dir.isDir at ha
    cases h : disk.get (resolve cwd a) with
    | none => rfl
    | some e =>
      rw [h] at ha
      cases e with
      | file t => exact absurd ha.1 (by simp)
      | dir s => exact absurd ha.2 (by simp)
  unfold headersMain
  simp only [List.map_append, List.map_cons]
  rw [fixDisk_eq, fixDisk_eq, checkDisk, checkDisk]
  simp only [List.flatMap_append, List.flatMap_cons, hs, List.nil_append, List.filter_nil]

/-- **C84.** Without a mode the script raises IndexError, with a mode other than `fix` and `check` AssertionError. -/
theorem C84_modes (year : Nat) (cwd prog : Text) (disk : Dir) :
    headersMain year cwd [] disk = .error .index ∧ headersMain year cwd [prog] disk = .error .index ∧
    ∀ mode args, mode ≠ lit "fix" → mode ≠ lit "check" → headersMain year cwd (prog :: mode :: args) disk = .error .assertion := by
  refine ⟨rfl, rfl, fun mode args h1 h2 => ?_⟩
  unfold headersMain
  simp only
  rw [if_neg h1, if_neg h2]

/-! ### A checkout -/

/-- `/home/q/{a.py, notes.txt, lib/{b.py, __pycache__/c.py}}`. -/
def demoDisk : Dir :=
  .dir (lit "home") (.dir (lit "q") (.file (lit "a.py") (lit "x = 1\n") (.file (lit "notes.txt") (lit "n\n")
    (.dir (lit "lib") (.file (lit "b.py") [] (.dir (lit "__pycache__") (.file (lit "c.py") (lit "y = 2\n") .nil) .nil)) .nil)))
    .nil) .nil

instance (n : Text) : Decidable (Name n) := inferInstanceAs (Decidable (_ ∧ _))
instance (n : Text) : Decidable (Hidden n) := inferInstanceAs (Decidable (_ ∨ _))

theorem demoDisk_ok : demoDisk.Ok := by
  simp only [demoDisk, Dir.Ok]
  and_intros
  all_goals first
    | trivial
    | rfl
    | decide

def demoCwd : List Text := [lit "home", lit "q"]

theorem demoCwd_names : ∀ n ∈ demoCwd, Name n := by decide

/-- An argument with `.` and `..` that leads to the directory itself. -/
example : resolve demoCwd (lit "./lib//..") = demoCwd := by decide

theorem demo_covers (ns : List Text) (f : Text) : Covered demoCwd [lit "./lib//.."] (demoCwd ++ ns) f :=
  ⟨lit "./lib//..", by simp, by
    rw [show resolve demoCwd (lit "./lib//..") = demoCwd by decide, List.append_assoc]
    exact List.prefix_append _ _⟩

theorem demo_a_not_headed : ¬ Headed 2022 (lit "x = 1\n") := by
  rw [← headed_iff, Bool.not_eq_false]
  decide +kernel

/-- The missing header of `a.py` is noticed. -/
example : headersMain 2022 (pathText demoCwd) [lit "s", lit "check", lit "./lib//.."] demoDisk = .ok (demoDisk, 1) := by
  obtain ⟨status, h1, h2, h3⟩ := C84_check 2022 demoCwd_names demoDisk_ok (lit "s") [lit "./lib//.."]
  rcases h2 with h2 | h2
  · exact absurd (h3.1 h2 demoCwd (lit "a.py") (lit "x = 1\n") rfl (by simpa using demo_covers [] (lit "a.py"))
      ⟨⟨lit ".py", by simp, by decide⟩, by decide⟩) demo_a_not_headed
  · rw [h1, h2]

/-- `fix` puts it in; the file in `__pycache__` and the notes stay as they are. -/
example : ∃ disk', headersMain 2022 (pathText demoCwd) [lit "s", lit "fix", lit "./lib//.."] demoDisk = .ok (disk', 0) ∧
    disk'.text (demoCwd ++ [lit "a.py"]) = some (addHeader 2022 (lit "x = 1\n")) ∧
    disk'.text (demoCwd ++ [lit "notes.txt"]) = some (lit "n\n") ∧
    disk'.text (demoCwd ++ [lit "lib", lit "__pycache__"] ++ [lit "c.py"]) = some (lit "y = 2\n") := by
  obtain ⟨disk', h1, h2, h3, h4, h5⟩ := C84_fix 2022 demoCwd_names demoDisk_ok (lit "s") [lit "./lib//.."]
  refine ⟨disk', h1, ?_, ?_, ?_⟩
  · rw [h4 demoCwd (lit "a.py") (lit "x = 1\n") rfl, if_pos ⟨by simpa using demo_covers [] (lit "a.py"),
      ⟨⟨lit ".py", by simp, by decide⟩, by decide⟩, demo_a_not_headed⟩]
  · rw [h4 demoCwd (lit "notes.txt") (lit "n\n") rfl, if_neg]
    rintro ⟨-, ⟨⟨s, hs, h⟩, -⟩, -⟩
    revert s
    decide
  · rw [h4 (demoCwd ++ [lit "lib", lit "__pycache__"]) (lit "c.py") (lit "y = 2\n") rfl, if_neg]
    rintro ⟨-, ⟨-, h⟩, -⟩
    exact h (lit "__pycache__") (by simp) (by decide)

/-- The same checkout below `/__w`, where GitHub puts it in a container: nothing is ever noticed there. -/
def hostedDisk : Dir := .dir (lit "__w") demoDisk .nil

theorem hostedDisk_ok : hostedDisk.Ok := ⟨by decide, rfl, demoDisk_ok, trivial⟩

example : headersMain 2022 (pathText (lit "__w" :: demoCwd)) [lit "s", lit "check", lit ".", lit "lib"] hostedDisk = .ok (hostedDisk, 0) :=
  (C84_hidden 2022 (by decide) hostedDisk_ok rfl ⟨lit "__w", by simp, by decide⟩ (by decide) (lit "s")).1

/-- A misspelt directory. -/
example : headersMain 2022 (pathText demoCwd) [lit "s", lit "check", lit "libs"] demoDisk = .ok (demoDisk, 0) :=
  C84_missing 2022 demoCwd_names demoDisk_ok ⟨rfl, rfl⟩ (lit "s") (lit "check") [] []

end QuDiet.Tools
