import Verif.Tools
import Verif.Lemmas.QasmFile
import Verif.Lemmas.Qasm2

/-! Lemmas about file names and file lines for the batch runner and the licence header script. -/

namespace QuDiet.Tools
open QuDiet.Qasm

theorem splitCh_ne_nil (sep : Char) (t : Text) : splitCh sep t ≠ [] := by
  induction t with
  | nil => simp [splitCh]
  | cons c t ih =>
    rw [splitCh]
    split
    · simp
    · cases h : splitCh sep t with
      | nil => simp
      | cons l ls => simp

/-- Splitting and joining again gives the text back. -/
theorem join_splitCh (sep : Char) (t : Text) : [sep].intercalate (splitCh sep t) = t := by
  induction t with
  | nil => simp [splitCh, List.intercalate]
  | cons c t ih =>
    rw [splitCh]
    split
    · rename_i h
      subst h
      have hne := splitCh_ne_nil c t
      revert ih hne
      cases splitCh c t with
      | nil => intro _ h; exact absurd rfl h
      | cons l ls => intro ih _; simp only [List.intercalate, List.intersperse_cons₂, List.flatten_cons] at ih ⊢; rw [ih]; simp
    · have hne := splitCh_ne_nil sep t
      revert ih hne
      cases splitCh sep t with
      | nil => intro _ h; exact absurd rfl h
      | cons l ls =>
        intro ih _
        simp only []
        cases ls with
        | nil => simp only [List.intercalate, List.intersperse_singleton, List.flatten_cons, List.flatten_nil, List.append_nil] at ih ⊢; rw [ih]
        | cons m ls => simp only [List.intercalate, List.intersperse_cons₂, List.flatten_cons] at ih ⊢; rw [← ih]; simp

/-- The last piece after splitting `stem.ext`. -/
theorem splitCh_snoc {sep : Char} {e : Text} (he : sep ∉ e) (s : Text) :
    splitCh sep (s ++ sep :: e) = splitCh sep s ++ [e] := by
  induction s with
  | nil =>
    have := splitCh_append (l := []) (sep := sep) (by simp) e
    rw [splitCh_line he] at this
    exact this
  | cons c s ih =>
    rw [List.cons_append, splitCh, splitCh, ih]
    split
    · rfl
    · have hne := splitCh_ne_nil sep s
      revert hne
      cases splitCh sep s with
      | nil => intro h; exact absurd rfl h
      | cons l ls => intro _; rfl

theorem outputName_eq {ext : Text} (he : '.' ∉ ext) (suffix stem : Text) :
    outputName suffix (stem ++ '.' :: ext) = stem ++ lit "-" ++ suffix ++ lit ".pkl" := by
  rw [outputName, splitCh_snoc he, List.dropLast_concat, join_splitCh]

/-! ### Lines -/

/-- A line with its line end. -/
def IsLine (l : Text) : Prop := ∃ m : Text, '\n' ∉ m ∧ '\r' ∉ m ∧ l = m ++ ['\n']

theorem splitLines_cons {l : Text} (h : IsLine l) (t : Text) : splitLines (l ++ t) = l :: splitLines t := by
  obtain ⟨m, hm, _, rfl⟩ := h
  clear * -hm
  induction m with
  | nil => simp [splitLines]
  | cons c m ih =>
    rw [List.cons_append, List.cons_append, splitLines, if_neg (fun e => hm (by simp [e])), ih fun e => hm (by simp [e])]

theorem splitLines_append {ls : List Text} (h : ∀ l ∈ ls, IsLine l) (t : Text) :
    splitLines (ls.flatten ++ t) = ls ++ splitLines t := by
  induction ls with
  | nil => rfl
  | cons l ls ih =>
    rw [List.flatten_cons, List.append_assoc, splitLines_cons (h l (by simp)), ih fun l hl => h l (by simp [hl]),
      List.cons_append]

theorem flatten_splitLines (t : Text) : (splitLines t).flatten = t := by
  induction t with
  | nil => rfl
  | cons c t ih =>
    rw [splitLines]
    split
    · rw [List.flatten_cons, ih]; rfl
    · revert ih
      cases splitLines t with
      | nil => intro ih; simpa using ih
      | cons l ls => intro ih; rw [← ih]; rfl

/-- Reading back the tail of a list of lines gives the same lines. -/
theorem splitLines_drop (t : Text) (i : Nat) : splitLines ((splitLines t).drop i).flatten = (splitLines t).drop i := by
  induction t generalizing i with
  | nil => simp [splitLines]
  | cons c t ih =>
    cases i with
    | zero => rw [List.drop_zero, flatten_splitLines]
    | succ i =>
      rw [splitLines]
      split
      · exact ih i
      · have := ih (i + 1)
        revert this
        cases splitLines t with
        | nil => intro _; simp [splitLines]
        | cons l ls => intro h; exact h

theorem IsLine.no_cr {l : Text} (h : IsLine l) : '\r' ∉ l := by
  obtain ⟨m, _, hr, rfl⟩ := h
  simp [hr]

theorem fileLines_append {ls : List Text} (h : ∀ l ∈ ls, IsLine l) (t : Text) :
    fileLines (ls.flatten ++ t) = ls ++ fileLines t := by
  unfold fileLines
  rw [universal_append, splitLines_append h]
  intro hm
  obtain ⟨l, hl, hm⟩ := List.mem_flatten.1 hm
  exact (h l hl).no_cr hm

theorem flatten_fileLines (t : Text) : (fileLines t).flatten = universal t := flatten_splitLines _

/-- Reading back the tail of a list of lines gives the same lines. -/
theorem fileLines_drop (t : Text) (i : Nat) : fileLines ((fileLines t).drop i).flatten = (fileLines t).drop i := by
  unfold fileLines
  rw [universal_eq, splitLines_drop]
  intro hm
  obtain ⟨l, hl, hm⟩ := List.mem_flatten.1 hm
  have : '\r' ∈ (splitLines (universal t)).flatten := List.mem_flatten.2 ⟨l, List.mem_of_mem_drop hl, hm⟩
  rw [flatten_splitLines] at this
  exact not_mem_universal t this

theorem lit_isLine {s : String} (h : (!(lit s).dropLast.contains '\n' && !(lit s).dropLast.contains '\r' && (lit s).getLast? == some '\n') = true) :
    IsLine (lit s) := by
  simp only [Bool.and_eq_true, Bool.not_eq_true', List.contains_eq_mem, decide_eq_false_iff_not, beq_iff_eq] at h
  refine ⟨_, h.1.1, h.1.2, ?_⟩
  have hne : lit s ≠ [] := by rintro e; rw [e] at h; simp at h
  have := List.dropLast_append_getLast hne
  rw [List.getLast?_eq_getLast_of_ne_nil hne, Option.some.injEq] at h
  rw [h.2] at this
  exact this.symm

theorem keep_isLine : ∀ l ∈ keep, IsLine l := by
  intro l hl
  simp only [keep, List.mem_cons, List.not_mem_nil, or_false] at hl
  rcases hl with rfl | rfl <;> exact lit_isLine (by decide +kernel)

theorem header_isLine (year : Nat) : ∀ l ∈ header year, IsLine l := by
  intro l hl
  simp only [header, List.mem_cons, List.not_mem_nil, or_false] at hl
  rcases hl with rfl | rfl | rfl | rfl | rfl | rfl | rfl | rfl | rfl | rfl | rfl | rfl | rfl | rfl | rfl | rfl | rfl |
    rfl | rfl | rfl | rfl | rfl | rfl | rfl | rfl
  case inr.inr.inr.inl =>
    have hc : ∀ c ∈ ['\n', '\r'], c ∉ lit "#                      Copyright (c) " ++ num year ++ lit "." := by
      intro c hc h
      simp only [List.mem_append] at h
      rcases h with (h | h) | h
      · revert c; decide +kernel
      · have := num_digits year _ h
        clear h
        revert c; decide
      · revert c; decide +kernel
    refine ⟨lit "#                      Copyright (c) " ++ num year ++ lit ".", hc _ (by simp), hc _ (by simp), ?_⟩
    · rw [List.append_assoc, List.append_assoc, List.append_assoc]; rfl
  all_goals exact lit_isLine (by decide +kernel)

/-- The first line of the header. -/
def first : Text := lit "#               This file is part of the QuDiet package.\n"

theorem header_head (year : Nat) : (header year).head? = some first := rfl

theorem first_not_keep : first ∉ keep := by decide +kernel

theorem header_length (year : Nat) : (header year).length = 25 := rfl

/-- Lines kept before the header are skipped. -/
theorem needsFix_skip {hd a ls : List Text} (hd0 : ∀ l ∈ keep, hd.head? ≠ some l) (ha : ∀ l ∈ a, l ∈ keep) :
    needsFixLines hd (a ++ ls) = needsFixLines hd ls := by
  induction a with
  | nil => rfl
  | cons x a ih =>
    rw [List.cons_append, needsFixLines, if_neg (hd0 _ (ha x (by simp))), if_pos (ha x (by simp)),
      ih fun l hl => ha l (by simp [hl])]

theorem any_zip_self (l b : List Text) : ((l.zip (l ++ b)).any fun p => p.2 != p.1) = false := by
  induction l with
  | nil => simp
  | cons x l ih => simp only [List.cons_append, List.zip_cons_cons, List.any_cons, ih, bne_self_eq_false, Bool.or_self]

theorem needsFix_header {hd : List Text} (hne : hd ≠ []) (b : List Text) : needsFixLines hd (hd ++ b) = false := by
  cases hd with
  | nil => exact absurd rfl hne
  | cons x l =>
    rw [List.cons_append, needsFixLines, if_pos (show (x :: l).head? = some x from rfl), ← List.cons_append, any_zip_self]

theorem header_ne_keep (year : Nat) : ∀ l ∈ keep, (header year).head? ≠ some l := by
  intro l hl h
  rw [header_head, Option.some.injEq] at h
  exact first_not_keep (h ▸ hl)

theorem insertAt_spec (ls : List Text) : ∀ l ∈ ls.take (insertAt ls), l ∈ keep := by
  intro l hl
  unfold insertAt at hl
  cases h : ls.findIdx? (· ∉ keep) with
  | none =>
    rw [List.findIdx?_eq_none_iff] at h
    simpa using h l (List.mem_of_mem_take hl)
  | some i =>
    rw [h] at hl
    rw [List.findIdx?_eq_some_iff_getElem] at h
    obtain ⟨hi, _, h⟩ := h
    obtain ⟨j, hj, rfl⟩ := List.mem_iff_getElem.1 hl
    have hj' : j < i := by simp at hj; omega
    rw [List.getElem_take]
    simpa using h j hj'

/-- Reading the fixed contents back. -/
theorem fileLines_addHeader (year : Nat) (t : Text) :
    fileLines (addHeader year t) =
      (fileLines t).take (insertAt (fileLines t)) ++ header year ++ (fileLines t).drop (insertAt (fileLines t)) := by
  unfold addHeader
  simp only []
  rw [List.flatten_append, fileLines_append, fileLines_drop]
  intro l hl
  rcases List.mem_append.1 hl with h | h
  · exact keep_isLine l (insertAt_spec _ l h)
  · exact header_isLine year l h

theorem needsFix_addHeader (year : Nat) (t : Text) : needsFixLines (header year) (fileLines (addHeader year t)) = false := by
  rw [fileLines_addHeader, List.append_assoc, needsFix_skip (header_ne_keep year) (insertAt_spec _)]
  exact needsFix_header (by simp [header]) _

theorem needsFix_write_ne {year : Nat} {p q : Text} (h : q ≠ p) (fs : FS) (t : Text) :
    needsFix year q (fs.write p t) = needsFix year q fs := by
  simp only [needsFix, FS.write, if_neg h]

theorem needsFix_write_self (year : Nat) (p : Text) (fs : FS) (t : Text) :
    needsFix year p (fs.write p (addHeader year t)) = false := by
  simp only [needsFix, FS.write, if_true, needsFix_addHeader, Bool.and_false]

/-- What `fix` does to each file. -/
theorem fix_apply (year : Nat) (ps : List Text) (fs : FS) (p : Text) :
    fix year ps fs p = if p ∈ ps ∧ needsFix year p fs = true then addHeader year (fs p) else fs p := by
  induction ps generalizing fs with
  | nil => simp [fix]
  | cons q ps ih =>
    have e : fix year (q :: ps) fs =
        fix year ps (if needsFix year q fs then fs.write q (addHeader year (fs q)) else fs) := rfl
    rw [e, ih]
    by_cases hq : needsFix year q fs = true
    · rw [if_pos hq]
      by_cases hpq : p = q
      · subst hpq
        rw [needsFix_write_self, if_neg (by simp), if_pos ⟨by simp, hq⟩]
        simp [FS.write]
      · rw [needsFix_write_ne hpq]
        simp [FS.write, hpq]
    · rw [if_neg hq]
      by_cases hpq : p = q
      · subst hpq
        rw [if_neg fun h => hq h.2, if_neg fun h => hq h.2]
      · simp [hpq]

theorem num_injective {a b : Nat} (h : num a = num b) : a = b := by
  have ha : Nat.ofDigitChars 10 (Nat.toDigits 10 a) 0 = a := Nat.ofDigitChars_ten_toDigits
  have hb : Nat.ofDigitChars 10 (Nat.toDigits 10 b) 0 = b := Nat.ofDigitChars_ten_toDigits
  rw [← ha, ← hb]
  exact congrArg (fun x => Nat.ofDigitChars 10 x 0) h

theorem needsFix_other {year year' : Nat} (h : year ≠ year') (b : List Text) :
    needsFixLines (header year') (header year ++ b) = true := by
  have e : ∀ y, ∃ l : List Text, header y = [first, lit "#              https://github.com/LegacYFTw/qubit-qudit-sim\n",
    lit "#\n", lit "#                      Copyright (c) " ++ num y ++ lit ".\n"] ++ l := fun y => ⟨_, rfl⟩
  obtain ⟨l, hl⟩ := e year
  obtain ⟨l', hl'⟩ := e year'
  rw [hl, hl']
  simp only [List.cons_append, List.nil_append, needsFixLines, List.head?_cons, if_true, List.zip_cons_cons,
    List.any_cons, bne_self_eq_false, Bool.false_or, Bool.or_eq_true, bne_iff_ne]
  left
  intro e
  have e1 := List.append_cancel_right e
  exact h (num_injective (List.append_cancel_left e1))

end QuDiet.Tools
