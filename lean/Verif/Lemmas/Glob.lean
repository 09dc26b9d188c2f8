import Verif.Glob
import Verif.Props.Walk
import Mathlib.Data.List.Induction

/-! # Lemmas for C86: writing files, following paths, and what `glob` finds -/

namespace QuDiet.Tools
open QuDiet.Qasm

/-! ### Specification (for `Props/Glob`) -/

/-- The argument leads to the directory `top`. An empty argument leads to the root. -/
def Leads (disk : Dir) (cwd : List Text) (path : Text) (top : List Text) : Prop :=
  (path = [] ∧ top = [] ∨ path ≠ [] ∧ disk.at cwd path = some top) ∧ disk.isDir top = true

/-- No name begins with a dot. -/
def Shown (ns : List Text) : Prop := ∀ n ∈ ns, ¬ lit "." <+: n

/-! ### Writing files -/

theorem isDir_nil (d : Dir) : d.isDir [] = true := rfl

theorem isDir_cons (d : Dir) (n : Text) (ns : List Text) : d.isDir (n :: ns) = match d.find n with
    | some (.dir s) => s.isDir ns
    | _ => false := by
  rw [Dir.isDir, get_cons]
  cases d.find n with
  | none => rfl
  | some x =>
    cases x with
    | dir s => rfl
    | file t =>
      simp only
      split <;> simp_all

theorem find_save_one (d : Dir) (n u m : Text) : (d.save [n] u).find m = if m = n then (match d.find n with
    | some (.dir s) => some (.dir s)
    | _ => some (.file u)) else d.find m := by
  induction d with
  | nil =>
    simp only [Dir.save, Dir.find, eq_comm]
  | file k t r ih =>
    rw [Dir.save]
    by_cases hk : k = n
    · subst hk
      simp only [if_true, Dir.find]
      by_cases hm : m = k
      · subst hm; simp
      · rw [if_neg (Ne.symm hm), if_neg hm, if_neg (Ne.symm hm)]
    · rw [if_neg (by simpa using Ne.symm hk), Dir.find, ih]
      simp only [Dir.find, if_neg hk]
      by_cases hm : k = m
      · subst hm; rw [if_pos rfl, if_neg hk, if_pos rfl]
      · rw [if_neg hm, if_neg hm]
  | dir k s r _ ih =>
    rw [Dir.save]
    by_cases hk : k = n
    · subst hk
      simp only [if_true, Dir.find]
      by_cases hm : m = k
      · subst hm; simp
      · rw [if_neg (Ne.symm hm), if_neg hm]
    · rw [if_neg (by simpa using Ne.symm hk), if_neg (by simpa using Ne.symm hk), Dir.find, ih]
      simp only [Dir.find, if_neg hk]
      by_cases hm : k = m
      · subst hm; rw [if_pos rfl, if_neg hk, if_pos rfl]
      · rw [if_neg hm, if_neg hm]

theorem find_save_more (d : Dir) (n : Text) {ns : List Text} (hns : ns ≠ []) (u m : Text) :
    (d.save (n :: ns) u).find m = if m = n then (match d.find n with
      | some (.dir s) => some (.dir (s.save ns u))
      | x => x) else d.find m := by
  induction d with
  | nil =>
    cases ns with
    | nil => exact absurd rfl hns
    | cons a ns => simp [Dir.save, Dir.find]
  | file k t r ih =>
    rw [Dir.save, if_neg (by simp [hns]), Dir.find, ih]
    simp only [Dir.find]
    by_cases hk : k = n
    · subst hk
      by_cases hm : m = k
      · subst hm; simp
      · rw [if_neg (Ne.symm hm), if_neg hm, if_neg hm, if_neg (Ne.symm hm)]
    · rw [if_neg hk]
      by_cases hm : k = m
      · subst hm; rw [if_pos rfl, if_neg hk, if_pos rfl]
      · rw [if_neg hm, if_neg hm]
  | dir k s r _ ih =>
    rw [Dir.save, if_neg (by simp [hns])]
    by_cases hk : k = n
    · subst hk
      rw [if_pos (show (k :: ns).head? = some k from rfl)]
      simp only [Dir.find, List.tail_cons]
      by_cases hm : m = k
      · subst hm; simp
      · rw [if_neg (Ne.symm hm), if_neg hm, if_neg (Ne.symm hm)]
    · rw [if_neg (by simpa using Ne.symm hk), Dir.find, ih]
      simp only [Dir.find, if_neg hk]
      by_cases hm : k = m
      · subst hm; rw [if_pos rfl, if_neg hk, if_pos rfl]
      · rw [if_neg hm, if_neg hm]

theorem isDir_save {d : Dir} {ms : List Text} (h : d.isDir ms = true) (n u : Text) (q : List Text) :
    (d.save (ms ++ [n]) u).isDir q = d.isDir q := by
  induction ms generalizing d q with
  | nil =>
    cases q with
    | nil => rfl
    | cons m q =>
      rw [isDir_cons, isDir_cons, List.nil_append, find_save_one]
      by_cases hm : m = n
      · subst hm
        rw [if_pos rfl]
        cases d.find m with
        | none => rfl
        | some x => cases x <;> rfl
      · rw [if_neg hm]
  | cons k ms ih =>
    cases q with
    | nil => rfl
    | cons m q =>
      rw [isDir_cons, isDir_cons, List.cons_append, find_save_more _ _ (by simp)]
      by_cases hm : m = k
      · subst hm
        rw [if_pos rfl]
        rw [isDir_cons] at h
        cases hf : d.find m with
        | none => rfl
        | some x =>
          cases x with
          | file t => rfl
          | dir s =>
            rw [hf] at h
            exact ih h q
      · rw [if_neg hm]

theorem text_save {d : Dir} {ms : List Text} (h : d.isDir ms = true) (n u : Text) (q : List Text) :
    (d.save (ms ++ [n]) u).text q = if q = ms ++ [n] ∧ d.isDir (ms ++ [n]) = false then some u else d.text q := by
  induction ms generalizing d q with
  | nil =>
    cases q with
    | nil => simp; rfl
    | cons m q =>
      rw [text_cons, text_cons, List.nil_append, find_save_one, isDir_cons]
      by_cases hm : m = n
      · subst hm
        rw [if_pos rfl]
        cases hf : d.find m with
        | none => cases q <;> simp
        | some x =>
          cases x with
          | file t => cases q <;> simp
          | dir s => simp [isDir_nil]
      · rw [if_neg hm, if_neg (by simp [hm])]
  | cons k ms ih =>
    cases q with
    | nil => simp; rfl
    | cons m q =>
      rw [text_cons, text_cons, List.cons_append, find_save_more _ _ (by simp), isDir_cons]
      by_cases hm : m = k
      · subst hm
        rw [if_pos rfl]
        rw [isDir_cons] at h
        cases hf : d.find m with
        | none => rw [hf] at h; cases h
        | some x =>
          cases x with
          | file t => rw [hf] at h; cases h
          | dir s =>
            rw [hf] at h
            simp only [List.cons.injEq, true_and]
            exact ih h q
      · rw [if_neg hm, if_neg (by simp [hm])]

theorem ok_save {d : Dir} (hd : d.Ok) {ms : List Text} (h : d.isDir ms = true) {n : Text} (hn : Name n) (u : Text) :
    (d.save (ms ++ [n]) u).Ok := by
  have fresh : ∀ (r : Dir) (ns : List Text) (m : Text), r.find m = none → ns ≠ [m] → (r.save ns u).find m = none := by
    intro r ns m hr hm
    match ns with
    | [] =>
      clear h hd
      induction r with
      | nil => rfl
      | file k t r ih =>
        rw [Dir.find] at hr
        split at hr
        · cases hr
        · rename_i hk
          simp [Dir.save, Dir.find, hk, ih hr]
      | dir k s r _ ih =>
        rw [Dir.find] at hr
        split at hr
        · cases hr
        · rename_i hk
          simp [Dir.save, Dir.find, hk, ih hr]
    | [a] =>
      rw [find_save_one, if_neg (fun e => hm (by rw [e])), hr]
    | a :: b :: ns =>
      rw [find_save_more _ _ (by simp)]
      split
      · rename_i e
        rw [← e, hr]
      · exact hr
  have key : ∀ (d : Dir) (ns : List Text), d.Ok → (∀ n ∈ ns, Name n) → (d.save ns u).Ok := by
    intro d
    induction d with
    | nil =>
      intro ns _ hns
      match ns with
      | [] => trivial
      | [a] => exact ⟨hns a (by simp), rfl, trivial⟩
      | a :: b :: ns => trivial
    | file k t r ih =>
      intro ns hd hns
      rw [Dir.save]
      split
      · exact hd
      · rename_i hk
        exact ⟨hd.1, fresh r ns k hd.2.1 hk, ih ns hd.2.2 hns⟩
    | dir k s r ihs ihr =>
      intro ns hd hns
      rw [Dir.save]
      split
      · exact hd
      · rename_i hk
        split
        · refine ⟨hd.1, hd.2.1, ihs _ hd.2.2.1 ?_, hd.2.2.2⟩
          intro x hx
          exact hns x (List.mem_of_mem_tail hx)
        · exact ⟨hd.1, fresh r ns k hd.2.1 hk, hd.2.2.1, ihr ns hd.2.2.2 hns⟩
  apply key d _ hd
  intro x hx
  rcases List.mem_append.1 hx with hx | hx
  · have : ∃ e, d.get ms = some e := by
      rw [Dir.isDir] at h
      cases hg : d.get ms with
      | none => rw [hg] at h; cases h
      | some e => exact ⟨e, rfl⟩
    obtain ⟨e, he⟩ := this
    exact (get_names hd he).1 x hx
  · rw [List.mem_singleton.1 hx]; exact hn

/-! ### Following paths -/

theorem isDir_iff {d : Dir} {ns : List Text} : d.isDir ns = true ↔ ∃ s, d.get ns = some (.dir s) := by
  rw [Dir.isDir]
  split
  · rename_i s h; simp [h]
  · rename_i h
    constructor
    · intro h; cases h
    · rintro ⟨s, hs⟩; exact absurd hs (h s)

theorem text_iff {d : Dir} {ns : List Text} {t : Text} : d.text ns = some t ↔ d.get ns = some (.file t) := by
  rw [Dir.text]
  split
  · rename_i s h; simp [h]
  · rename_i h
    constructor
    · intro h; cases h
    · intro hs; exact absurd hs (h t)

theorem isDir_prefix {d : Dir} {ns ms : List Text} (h : d.isDir (ns ++ ms) = true) : d.isDir ns = true := by
  by_cases hm : ms = []
  · simpa [hm] using h
  · obtain ⟨s, hs⟩ := isDir_iff.1 h
    rw [get_append _ _ _ hm] at hs
    cases hg : d.get ns with
    | none => rw [hg] at hs; cases hs
    | some e =>
      cases e with
      | file t => rw [hg] at hs; cases hs
      | dir e => exact isDir_iff.2 ⟨e, hg⟩

theorem follow_cons (d : Dir) (here : List Text) (n : Text) (ns : List Text) :
    d.follow here (n :: ns) = if d.isDir here = true then
      (if n = [] ∨ n = lit "." then d.follow here ns else if n = lit ".." then d.follow here.dropLast ns
        else d.follow (here ++ [n]) ns) else none := by
  rw [Dir.follow, Dir.isDir]
  cases d.get here with
  | none => rfl
  | some e => cases e <;> rfl

theorem follow_append (d : Dir) (here a b : List Text) :
    d.follow here (a ++ b) = (d.follow here a).bind fun h => d.follow h b := by
  induction a generalizing here with
  | nil => rfl
  | cons n a ih =>
    rw [List.cons_append, follow_cons, follow_cons, ih, ih, ih]
    by_cases h : d.isDir here = true
    · rw [if_pos h, if_pos h]
      split <;> [rfl; split <;> rfl]
    · rw [if_neg h, if_neg h]; rfl

theorem follow_congr {d e : Dir} (h : ∀ q, d.isDir q = e.isDir q) (here ns : List Text) : d.follow here ns = e.follow here ns := by
  induction ns generalizing here with
  | nil => rfl
  | cons n ns ih => rw [follow_cons, follow_cons, h, ih, ih, ih]

theorem follow_empties {d : Dir} {here es h : List Text} (he : ∀ e ∈ es, e = []) (hf : d.follow here es = some h) :
    here = h := by
  induction es with
  | nil => exact Option.some.inj hf
  | cons e es ih =>
    rw [follow_cons] at hf
    split at hf
    · rw [if_pos (.inl (he e (by simp)))] at hf
      exact ih (fun e h => he e (by simp [h])) hf
    · cases hf

theorem follow_dir_empties {d : Dir} {here es : List Text} (he : ∀ e ∈ es, e = []) (hd : d.isDir here = true) :
    d.follow here es = some here := by
  induction es with
  | nil => rfl
  | cons e es ih =>
    rw [follow_cons, if_pos hd, if_pos (.inl (he e (by simp)))]
    exact ih fun e h => he e (by simp [h])

theorem follow_names {d : Dir} {here ms : List Text} (h : d.isDir (here ++ ms) = true) (hn : ∀ n ∈ ms, Name n) {n : Text}
    (hnn : Name n) : d.follow here (ms ++ [n]) = some (here ++ ms ++ [n]) := by
  induction ms generalizing here with
  | nil =>
    rw [List.nil_append, follow_cons, if_pos (isDir_prefix h), if_neg (by simp [hnn.1, hnn.2.2.1]), if_neg hnn.2.2.2]
    simp [Dir.follow]
  | cons m ms ih =>
    have hm := hn m (by simp)
    rw [List.cons_append, follow_cons, if_pos (isDir_prefix h), if_neg (by simp [hm.1, hm.2.2.1]), if_neg hm.2.2.2,
      ih (by simpa using h) fun n h => hn n (by simp [h])]
    simp

theorem split_cat (a b : Text) : splitCh '/' (a ++ '/' :: b) = splitCh '/' a ++ splitCh '/' b := by
  induction a with
  | nil =>
    show splitCh '/' ('/' :: b) = [] :: splitCh '/' b
    conv_lhs => rw [splitCh]
    rw [if_pos rfl]
  | cons c a ih =>
    rw [List.cons_append, splitCh, splitCh, ih]
    split
    · rfl
    · cases h : splitCh '/' a with
      | nil => exact absurd h (splitCh_ne_nil _ _)
      | cons l ls => rfl

theorem split_slashes (k : Nat) (x : Text) : splitCh '/' (List.replicate k '/' ++ x) = List.replicate k [] ++ splitCh '/' x := by
  induction k with
  | zero => rfl
  | succ k ih => rw [List.replicate_succ, List.cons_append, splitCh, if_pos rfl, ih]; rfl

/-- What `globBase` leaves. -/
theorem globBase_cases (path : Text) :
    (∃ k, path = List.replicate k '/' ∧ globBase path = List.replicate (k + 1) '/') ∨
    ∃ k, path = globBase path ++ List.replicate k '/' ∧ globBase path ≠ [] ∧ (lit "/").isSuffixOf (globBase path) = false := by
  unfold globBase
  simp only
  by_cases h : (path ++ lit "/").all (· = '/') = true
  · left
    rw [if_pos h]
    have hp : path = List.replicate path.length '/' := by
      rw [List.eq_replicate_iff]
      refine ⟨rfl, fun c hc => ?_⟩
      have := List.all_eq_true.1 h c (by simp [hc])
      simpa using this
    refine ⟨path.length, hp, ?_⟩
    conv_lhs => rw [hp]
    simp [lit, List.replicate_succ']
  · right
    rw [if_neg h]
    obtain ⟨a, c, k, hp, hc⟩ : ∃ a c k, path = a ++ [c] ++ List.replicate k '/' ∧ c ≠ '/' := by
      have : ∃ c ∈ path, c ≠ '/' := by
        by_contra hcon
        apply h
        rw [List.all_eq_true]
        intro c hc
        rcases List.mem_append.1 hc with hc | hc
        · by_contra hne
          exact hcon ⟨c, hc, by simpa using hne⟩
        · simp [lit] at hc; simp [hc]
      clear h
      induction path using List.reverseRecOn with
      | nil => simp at this
      | append_singleton l x ih =>
        by_cases hx : x = '/'
        · subst hx
          obtain ⟨c, hc, hne⟩ := this
          have hc' : c ∈ l := by
            rcases List.mem_append.1 hc with h | h
            · exact h
            · exact absurd (List.mem_singleton.1 h) hne
          obtain ⟨a, c, k, hp, hne⟩ := ih ⟨c, hc', hne⟩
          exact ⟨a, c, k + 1, by rw [hp, List.replicate_succ', List.append_assoc], hne⟩
        · exact ⟨l, x, 0, by simp, hx⟩
    have e : ((path ++ lit "/").reverse.dropWhile (· = '/')).reverse = a ++ [c] := by
      rw [hp]
      have : (a ++ [c] ++ List.replicate k '/' ++ lit "/").reverse = List.replicate (k + 1) '/' ++ c :: a.reverse := by
        simp [lit, List.replicate_succ]
      rw [this]
      have hd : ∀ n, (List.replicate n '/' ++ c :: a.reverse).dropWhile (· = '/') = c :: a.reverse := by
        intro n
        induction n with
        | zero => simp [List.dropWhile, hc]
        | succ n ih => simpa [List.replicate_succ, List.dropWhile] using ih
      rw [hd]
      simp
    rw [e]
    refine ⟨k, hp, by simp, ?_⟩
    rw [Bool.eq_false_iff]
    intro hs
    obtain ⟨x, hx⟩ := List.isSuffixOf_iff_suffix.1 hs
    have := congrArg List.getLast? hx
    simp [lit] at this
    exact hc this.symm

theorem prefix_replicate (k : Nat) (x : Text) : (lit "/").isPrefixOf (List.replicate (k + 1) '/' ++ x) = true := by
  simp [lit, List.replicate_succ, List.isPrefixOf]

/-- Paths below the argument are followed from where it leads. -/
theorem at_join {disk : Dir} {cwd : List Text} {path : Text} {top : List Text} (h : Leads disk cwd path top) {x : Text}
    (hx : (lit "/").isPrefixOf x = false) :
    disk.at cwd (joinPath (globBase path) x) = disk.follow top (splitCh '/' x) ∧ disk.at cwd (globBase path) = some top := by
  obtain ⟨h, hd⟩ := h
  rcases globBase_cases path with ⟨k, hp, hb⟩ | ⟨k, hp, hb, hs⟩
  · have htop : top = [] := by
      rcases h with ⟨_, h⟩ | ⟨hne, h⟩
      · exact h
      · rw [Dir.at, hp] at h
        cases k with
        | zero => exact absurd hp hne
        | succ k =>
          have := prefix_replicate k []
          rw [List.append_nil] at this
          rw [if_pos this] at h
          have hsp := split_slashes (k + 1) []
          rw [List.append_nil] at hsp
          rw [hsp] at h
          exact (follow_empties (by simp [splitCh]) h).symm
    subst htop
    have hj : joinPath (globBase path) x = List.replicate (k + 1) '/' ++ x := by
      rw [hb, joinPath, hx, if_neg (by simp), if_pos]
      have : (lit "/").isSuffixOf (List.replicate (k + 1) '/') = true := by
        rw [List.isSuffixOf_iff_suffix, List.replicate_succ']
        exact ⟨_, rfl⟩
      rw [this]; simp
    constructor
    · rw [hj, Dir.at, if_pos (prefix_replicate k x), split_slashes, follow_append,
        follow_dir_empties (by simp) hd]
      rfl
    · have hsp := split_slashes (k + 1) []
      rw [List.append_nil] at hsp
      have := prefix_replicate k []
      rw [List.append_nil] at this
      rw [hb, Dir.at, if_pos this, hsp]
      exact follow_dir_empties (by simp [splitCh]) hd
  · have hne : path ≠ [] := by
      intro e
      exact hb (List.append_eq_nil_iff.1 (hp.symm.trans e)).1
    have hat : disk.at cwd path = some top := by
      rcases h with ⟨h, _⟩ | ⟨_, h⟩
      · exact absurd h hne
      · exact h
    have pre : ∀ y, (lit "/").isPrefixOf (globBase path ++ y) = (lit "/").isPrefixOf (globBase path) := by
      intro y
      cases hg : globBase path with
      | nil => exact absurd hg hb
      | cons c b => simp [lit, List.isPrefixOf]
    have hbase : disk.at cwd (globBase path) = some top := by
      rw [Dir.at, hp, pre] at hat
      cases k with
      | zero => simpa [Dir.at] using hat
      | succ k =>
        rw [List.replicate_succ, split_cat, follow_append] at hat
        obtain ⟨m, hm, hm'⟩ := Option.bind_eq_some_iff.1 hat
        have hsp := split_slashes k []
        rw [List.append_nil] at hsp
        rw [hsp] at hm'
        rw [Dir.at, hm, follow_empties (by simp [splitCh]; tauto) hm']
    refine ⟨?_, hbase⟩
    have hj : joinPath (globBase path) x = globBase path ++ '/' :: x := by
      rw [joinPath, hx, if_neg (by simp), if_neg (by rw [hs]; simpa using hb)]
      simp [lit]
    rw [hj, Dir.at, pre, split_cat, follow_append]
    rw [Dir.at] at hbase
    rw [hbase]
    rfl

/-- The name under which the file at `rel` below the argument is opened. -/
def openedAs (path : Text) (rel : List Text) : Text := joinPath (globBase path) (['/'].intercalate rel)

theorem not_abs_rel {rel : List Text} (hn : ∀ n ∈ rel, Name n) : (lit "/").isPrefixOf (['/'].intercalate rel) = false := by
  rw [Bool.eq_false_iff]
  intro h
  obtain ⟨x, hx⟩ := List.isPrefixOf_iff_prefix.1 h
  match rel with
  | [] => simp [lit, List.intercalate] at hx
  | [n] =>
    have := hn n (by simp)
    simp [lit, List.intercalate] at hx
    exact this.2.1 (by rw [← hx]; simp)
  | n :: m :: ns =>
    have := hn n (by simp)
    rw [intercalate_cons (by simp)] at hx
    cases n with
    | nil => exact this.1 rfl
    | cons c n =>
      simp [lit] at hx
      exact this.2.1 (by rw [← hx.1]; simp)

theorem at_opened {disk : Dir} {cwd : List Text} {path : Text} {top : List Text} (h : Leads disk cwd path top) {ms : List Text}
    (hms : disk.isDir (top ++ ms) = true) (hn : ∀ n ∈ ms, Name n) {n : Text} (hnn : Name n) :
    disk.at cwd (openedAs path (ms ++ [n])) = some (top ++ ms ++ [n]) := by
  have hall : ∀ x ∈ ms ++ [n], Name x := by
    intro x hx
    rcases List.mem_append.1 hx with hx | hx
    · exact hn x hx
    · rw [List.mem_singleton.1 hx]; exact hnn
  rw [openedAs, (at_join h (not_abs_rel hall)).1, split_intercalate (by simp) fun n h => (hall n h).2.1]
  exact follow_names hms hn hnn

theorem at_opened_dir {disk : Dir} {cwd : List Text} {path : Text} {top : List Text} (h : Leads disk cwd path top) {ms : List Text}
    (hms : disk.isDir (top ++ ms) = true) (hn : ∀ n ∈ ms, Name n) :
    disk.at cwd (openedAs path ms) = some (top ++ ms) := by
  rcases List.eq_nil_or_concat ms with rfl | ⟨l, n, rfl⟩
  · rw [openedAs, (at_join h (by rfl)).1]
    show disk.follow top [[]] = _
    rw [follow_dir_empties (by simp) (by simpa using hms)]
    simp
  · have hms' : disk.isDir (top ++ l ++ [n]) = true := by simpa using hms
    have := at_opened h (isDir_prefix hms') (fun x hx => hn x (by simp [hx])) (hn n (by simp))
    simpa using this

/-- One more name. -/
theorem opened_join {ms : List Text} (path : Text) (hn : ∀ n ∈ ms, Name n) {f : Text} (hf : Name f) :
    joinPath (openedAs path ms) f = openedAs path (ms ++ [f]) := by
  have hf' : (lit "/").isPrefixOf f = false := not_abs hf.2.1
  have join2 : ∀ a : Text, joinPath a f = if a.isEmpty || (lit "/").isSuffixOf a then a ++ f else a ++ lit "/" ++ f := by
    intro a
    rw [joinPath, hf', if_neg (by simp)]
  by_cases hms : ms = []
  · subst hms
    have e1 : (['/'].intercalate [] : Text) = [] := rfl
    have e2 : (['/'].intercalate [f] : Text) = f := by simp [List.intercalate]
    simp only [openedAs, List.nil_append, e1, e2]
    have hj : ∀ a : Text, joinPath a [] = if a.isEmpty || (lit "/").isSuffixOf a then a else a ++ lit "/" := by
      intro a
      rw [joinPath, if_neg (by decide)]
      split <;> simp
    rw [hj, join2 (globBase path)]
    by_cases hc : ((globBase path).isEmpty || (lit "/").isSuffixOf (globBase path)) = true
    · rw [if_pos hc, if_pos hc, join2, if_pos hc]
    · rw [if_neg hc, if_neg hc, join2, if_pos]
      have : (lit "/").isSuffixOf (globBase path ++ lit "/") = true := List.isSuffixOf_iff_suffix.2 ⟨_, rfl⟩
      rw [this]; simp
  · have hj : ∃ a, openedAs path ms = a ++ ['/'].intercalate ms ∧ openedAs path (ms ++ [f]) = a ++ ['/'].intercalate (ms ++ [f]) := by
      have h1 := not_abs_rel hn
      have h2 : (lit "/").isPrefixOf (['/'].intercalate (ms ++ [f])) = false := not_abs_rel (by
        intro x hx
        rcases List.mem_append.1 hx with hx | hx
        · exact hn x hx
        · rw [List.mem_singleton.1 hx]; exact hf)
      unfold openedAs
      simp only [joinPath, h1, h2, Bool.false_eq_true, if_false]
      split
      · exact ⟨_, rfl, rfl⟩
      · exact ⟨_, rfl, rfl⟩
    obtain ⟨a, h1, h2⟩ := hj
    rw [h1, h2, join2, if_neg, intercalate_snoc hms]
    · simp [lit]
    · rw [intercalate_ends hms hn]
      simp
      intro e
      match ms with
      | [] => exact absurd rfl hms
      | [n] => simp [List.intercalate]; exact (hn n (by simp)).1
      | n :: m :: ns => rw [intercalate_cons (by simp)]; simp

/-! ### What `glob` finds -/

theorem globHidden_iff (n : Text) : globHidden n = false ↔ ¬ lit "." <+: n := by
  rw [globHidden, Bool.eq_false_iff, Ne, List.isPrefixOf_iff_prefix]

theorem mem_names (d : Dir) (n : Text) : n ∈ d.names ↔ d.find n ≠ none := by
  induction d with
  | nil => simp [Dir.names, Dir.find]
  | file m t r ih =>
    rw [Dir.names, Dir.find, List.mem_cons, ih]
    by_cases h : m = n
    · simp [h]
    · rw [if_neg h]; simp [Ne.symm h]
  | dir m s r _ ih =>
    rw [Dir.names, Dir.find, List.mem_cons, ih]
    by_cases h : m = n
    · simp [h]
    · rw [if_neg h]; simp [Ne.symm h]

theorem joinPath_rel {n : Text} {ms : List Text} (hn : Name n) (hm : ∀ m ∈ ms, Name m) (hne : ms ≠ []) :
    joinPath n (['/'].intercalate ms) = ['/'].intercalate (n :: ms) := by
  rw [joinPath, not_abs_rel hm, if_neg (by simp), if_neg, intercalate_cons hne]
  · simp [lit]
  · have := intercalate_ends (ns := [n]) (by simp) (by simpa using hn) []
    simp [List.intercalate] at this
    simp [this, hn.1]

theorem mem_rlist {d : Dir} (hd : d.Ok) (x : Text) :
    x ∈ d.rlist ↔ ∃ ns, ns ≠ [] ∧ d.isDir ns = true ∧ Shown ns ∧ x = ['/'].intercalate ns := by
  induction d generalizing x with
  | nil =>
    simp only [Dir.rlist, List.not_mem_nil, false_iff]
    rintro ⟨ns, hne, h, _⟩
    cases ns with
    | nil => exact hne rfl
    | cons n ns => rw [isDir_cons] at h; simp [Dir.find] at h
  | file m t r ih =>
    rw [Dir.rlist, ih hd.2.2]
    apply exists_congr
    intro ns
    apply and_congr_right
    intro hne
    cases ns with
    | nil => exact absurd rfl hne
    | cons n ns =>
      rw [isDir_cons, isDir_cons, Dir.find]
      by_cases h : m = n
      · subst h
        rw [if_pos rfl, hd.2.1]
      · rw [if_neg h]
  | dir m s r ihs ihr =>
    rw [Dir.rlist, List.mem_append, ihr hd.2.2.2]
    have hnames : ∀ ns, s.isDir ns = true → ∀ n ∈ ns, Name n := by
      intro ns h
      obtain ⟨e, he⟩ := isDir_iff.1 h
      exact (get_names hd.2.2.1 he).1
    have h1 : (x ∈ if globHidden m = true then [] else m :: s.rlist.map (joinPath m)) ↔
        ∃ ns, s.isDir ns = true ∧ Shown (m :: ns) ∧ x = ['/'].intercalate (m :: ns) := by
      by_cases hm : globHidden m = true
      · rw [if_pos hm]
        simp only [List.not_mem_nil, false_iff]
        rintro ⟨ns, _, hs, _⟩
        exact hs m (by simp) (List.isPrefixOf_iff_prefix.1 hm)
      · rw [if_neg hm]
        have hm' : ¬ lit "." <+: m := (globHidden_iff m).1 (by simpa using hm)
        rw [List.mem_cons, List.mem_map]
        constructor
        · rintro (rfl | ⟨y, hy, rfl⟩)
          · exact ⟨[], rfl, by simpa [Shown] using hm', by simp [List.intercalate]⟩
          · obtain ⟨ns, hne, hdir, hs, rfl⟩ := (ihs hd.2.2.1 y).1 hy
            refine ⟨ns, hdir, ?_, joinPath_rel hd.1 (hnames ns hdir) hne⟩
            intro n hn
            rcases List.mem_cons.1 hn with rfl | hn
            · exact hm'
            · exact hs n hn
        · rintro ⟨ns, hdir, hs, rfl⟩
          by_cases hne : ns = []
          · subst hne; left; simp [List.intercalate]
          · right
            exact ⟨_, (ihs hd.2.2.1 _).2 ⟨ns, hne, hdir, fun n hn => hs n (by simp [hn]), rfl⟩,
              joinPath_rel hd.1 (hnames ns hdir) hne⟩
    rw [h1]
    constructor
    · rintro (⟨ns, hdir, hs, rfl⟩ | ⟨ns, hne, hdir, hs, rfl⟩)
      · refine ⟨m :: ns, by simp, ?_, hs, rfl⟩
        rw [isDir_cons, Dir.find, if_pos rfl]
        exact hdir
      · refine ⟨ns, hne, ?_, hs, rfl⟩
        cases ns with
        | nil => exact absurd rfl hne
        | cons n ns =>
          rw [isDir_cons] at hdir ⊢
          rw [Dir.find]
          by_cases h : m = n
          · subst h
            rw [hd.2.1] at hdir
            cases hdir
          · rw [if_neg h]; exact hdir
    · rintro ⟨ns, hne, hdir, hs, rfl⟩
      cases ns with
      | nil => exact absurd rfl hne
      | cons n ns =>
        rw [isDir_cons, Dir.find] at hdir
        by_cases h : m = n
        · subst h
          rw [if_pos rfl] at hdir
          exact .inl ⟨ns, hdir, hs, rfl⟩
        · rw [if_neg h] at hdir
          exact .inr ⟨n :: ns, by simp, by rw [isDir_cons]; exact hdir, hs, rfl⟩

theorem get_below {disk : Dir} {top ns : List Text} {d : Dir} (hd : disk.get top = some (.dir d)) :
    disk.isDir (top ++ ns) = d.isDir ns := by
  by_cases hne : ns = []
  · subst hne
    rw [List.append_nil, isDir_nil]
    exact isDir_iff.2 ⟨d, hd⟩
  · rw [Dir.isDir, get_append _ _ _ hne, hd, Dir.isDir]

/-- What `glob` returns: the entries below the argument whose names end in `.mode`, with no name on the way that begins
with a dot. -/
theorem mem_glob {disk : Dir} (hok : disk.Ok) {cwd : List Text} {path : Text} {top : List Text} (h : Leads disk cwd path top)
    (mode p : Text) :
    p ∈ disk.glob cwd path mode ↔ ∃ ns f, disk.get (top ++ ns ++ [f]) ≠ none ∧ Shown (ns ++ [f]) ∧ lit "." ++ mode <:+ f ∧
      p = openedAs path (ns ++ [f]) := by
  obtain ⟨d, hd⟩ := isDir_iff.1 h.2
  have hdok : d.Ok := (get_names hok hd).2 d rfl
  have hnames : ∀ ns, d.isDir ns = true → ∀ n ∈ ns, Name n := by
    intro ns h
    obtain ⟨e, he⟩ := isDir_iff.1 h
    exact (get_names hdok he).1
  have hlook : disk.look cwd (globBase path) = some (.dir d) := by
    rw [Dir.look, (at_join h (x := []) rfl).2]
    exact hd
  unfold Dir.glob
  rw [hlook]
  simp only [List.mem_flatMap, List.mem_map]
  have dirs : ∀ dn, (∃ x ∈ [] :: d.rlist, joinPath (globBase path) x = dn) ↔
      ∃ ns, d.isDir ns = true ∧ Shown ns ∧ dn = openedAs path ns := by
    intro dn
    constructor
    · rintro ⟨x, hx, rfl⟩
      rcases List.mem_cons.1 hx with rfl | hx
      · exact ⟨[], rfl, by simp [Shown], rfl⟩
      · obtain ⟨ns, _, h1, h2, rfl⟩ := (mem_rlist hdok x).1 hx
        exact ⟨ns, h1, h2, rfl⟩
    · rintro ⟨ns, h1, h2, rfl⟩
      refine ⟨['/'].intercalate ns, ?_, rfl⟩
      by_cases hne : ns = []
      · subst hne; exact List.mem_cons_self ..
      · exact List.mem_cons_of_mem _ ((mem_rlist hdok _).2 ⟨ns, hne, h1, h2, rfl⟩)
  have look : ∀ ns, d.isDir ns = true → ∃ e, disk.get (top ++ ns) = some (.dir e) ∧
      disk.look cwd (openedAs path ns) = some (.dir e) := by
    intro ns hns
    have h' : disk.isDir (top ++ ns) = true := by rw [get_below hd]; exact hns
    obtain ⟨e, he⟩ := isDir_iff.1 h'
    refine ⟨e, he, ?_⟩
    rw [Dir.look, at_opened_dir h h' (hnames ns hns)]
    exact he
  have found : ∀ (ns : List Text) (e : Dir) (f : Text), disk.get (top ++ ns) = some (.dir e) →
      (disk.get (top ++ ns ++ [f]) ≠ none ↔ e.find f ≠ none) := by
    intro ns e f he
    rw [get_append _ _ _ (by simp), he]
    show e.get [f] ≠ none ↔ _
    rw [get_cons]
    cases e.find f with
    | none => rfl
    | some x => cases x <;> simp [Dir.get]
  constructor
  · rintro ⟨dn, hdn, hp⟩
    obtain ⟨ns, h1, h2, rfl⟩ := (dirs dn).1 hdn
    obtain ⟨e, he, hl⟩ := look ns h1
    rw [hl] at hp
    obtain ⟨f, hf, rfl⟩ := List.mem_map.1 hp
    rw [List.mem_filter, mem_names] at hf
    have hf2 : globHidden f = false ∧ (lit "." ++ mode).isSuffixOf f = true := by simpa using hf.2
    refine ⟨ns, f, (found ns e f he).2 hf.1, ?_, List.isSuffixOf_iff_suffix.1 hf2.2, ?_⟩
    · intro n hn
      rcases List.mem_append.1 hn with hn | hn
      · exact h2 n hn
      · rw [List.mem_singleton.1 hn]; exact (globHidden_iff f).1 hf2.1
    · apply opened_join path (hnames ns h1)
      obtain ⟨x, hx⟩ := Option.ne_none_iff_exists'.1 hf.1
      have eok : e.Ok := (get_names hok he).2 e rfl
      exact (find_name eok hx).1
  · rintro ⟨ns, f, hg, hs, hf, rfl⟩
    have hdir : disk.isDir (top ++ ns) = true := by
      rw [get_append _ _ _ (by simp)] at hg
      cases hx : disk.get (top ++ ns) with
      | none => rw [hx] at hg; exact absurd rfl hg
      | some e =>
        cases e with
        | dir e => exact isDir_iff.2 ⟨e, hx⟩
        | file t => rw [hx] at hg; exact absurd rfl hg
    have hns : d.isDir ns = true := by rw [← get_below hd]; exact hdir
    obtain ⟨e, he, hl⟩ := look ns hns
    have hff := (found ns e f he).1 hg
    obtain ⟨x, hx⟩ := Option.ne_none_iff_exists'.1 hff
    have eok : e.Ok := (get_names hok he).2 e rfl
    refine ⟨openedAs path ns, (dirs _).2 ⟨ns, hns, fun n hn => hs n (by simp [hn]), rfl⟩, ?_⟩
    rw [hl]
    refine List.mem_map.2 ⟨f, ?_, opened_join path (hnames ns hns) (find_name eok hx).1⟩
    rw [List.mem_filter, mem_names]
    refine ⟨hff, ?_⟩
    rw [(globHidden_iff f).2 (hs f (by simp)), List.isSuffixOf_iff_suffix.2 hf]
    rfl

end QuDiet.Tools
