import Verif.Props.QasmFile
import Verif.Lemmas.Tools

/-!
# C41, C42: the batch runner and the licence header script

C41: what one invocation of the batch runner leaves in every file, whichever circuit files fail.
C42: what the header script leaves in every file, and what it then reports.
-/

namespace QuDiet.Tools
open QuDiet.Qasm

/-! ## C41 -/

/-- What the result file of `stem.ext` should be called. -/
def resultFile (suffix stem : Text) : Text := stem ++ lit "-" ++ suffix ++ lit ".pkl"

theorem resultFile_injective (suffix : Text) {s s' : Text} (h : resultFile suffix s = resultFile suffix s') : s = s' := by
  unfold resultFile at h
  exact List.append_cancel_right (List.append_cancel_right (List.append_cancel_right h))

theorem resultFile_ne {ext : Text} (he : '.' ∉ ext) (hp : ext ≠ lit "pkl") (suffix s s' : Text) :
    s' ++ '.' :: ext ≠ resultFile suffix s := by
  intro h
  have e : resultFile suffix s = (s ++ lit "-" ++ suffix) ++ '.' :: lit "pkl" := rfl
  have h1 := congrArg (splitCh '.') h
  rw [e, splitCh_snoc he, splitCh_snoc (by decide)] at h1
  have h2 := congrArg List.getLast? h1
  simp only [List.getLast?_append, List.getLast?_singleton, Option.some_or, Option.some.injEq] at h2
  exact hp h2

/-- **C41**, names: the result of `stem.ext` goes to `stem-suffix.pkl`, wherever else dots occur in the path. -/
theorem C41_result_name {ext : Text} (he : '.' ∉ ext) (suffix stem : Text) :
    outputName suffix (stem ++ '.' :: ext) = resultFile suffix stem :=
  outputName_eq he suffix stem

/-- **C41**: after one invocation over files `stem.ext`, (1) every result file holds the result of its own circuit
file as it was at the start, or is untouched if that file failed, no matter which others failed; (2) nothing
else is touched; in particular (3) no circuit file; (4) distinct circuit files have distinct result files. -/
theorem C41_batch {ext : Text} (he : '.' ∉ ext) (hp : ext ≠ lit "pkl") (process : Text → Text → PyM Text)
    (suffix : Text) (stems : List Text) (fs : FS) :
    let files := stems.map fun s => s ++ '.' :: ext
    let fs' := batch process suffix files fs
    (∀ s ∈ stems, ∀ r, process (s ++ '.' :: ext) (fs (s ++ '.' :: ext)) = .ok r → fs' (resultFile suffix s) = r) ∧
    (∀ s ∈ stems, ∀ e, process (s ++ '.' :: ext) (fs (s ++ '.' :: ext)) = .error e →
      fs' (resultFile suffix s) = fs (resultFile suffix s)) ∧
    (∀ p, (∀ s ∈ stems, p ≠ resultFile suffix s) → fs' p = fs p) ∧
    (∀ f ∈ files, fs' f = fs f) ∧
    (∀ s ∈ stems, ∀ s' ∈ stems, s ++ '.' :: ext ≠ s' ++ '.' :: ext → resultFile suffix s ≠ resultFile suffix s') := by
  -- one file after the other, from any contents that agree with `fs` on the circuit files
  have key : ∀ (l : List Text) (g : FS),
      (∀ s, g (s ++ '.' :: ext) = fs (s ++ '.' :: ext)) →
      ∀ p, batch process suffix (l.map fun s => s ++ '.' :: ext) g p = g p ∧
          (∀ s ∈ l, p = resultFile suffix s → ∃ e, process (s ++ '.' :: ext) (fs (s ++ '.' :: ext)) = .error e) ∨
        ∃ s ∈ l, p = resultFile suffix s ∧
          process (s ++ '.' :: ext) (fs (s ++ '.' :: ext)) = .ok (batch process suffix (l.map fun s => s ++ '.' :: ext) g p) := by
    intro l
    induction l with
    | nil => intro g _ p; exact .inl ⟨rfl, by simp⟩
    | cons s l ih =>
      intro g hg p
      have e : batch process suffix ((s :: l).map fun s => s ++ '.' :: ext) g =
          batch process suffix (l.map fun s => s ++ '.' :: ext) (routine process suffix (s ++ '.' :: ext) g) := rfl
      rw [e]
      cases hr : process (s ++ '.' :: ext) (fs (s ++ '.' :: ext)) with
      | error x =>
        have e1 : routine process suffix (s ++ '.' :: ext) g = g := by rw [routine, hg, hr]
        rw [e1]
        rcases ih g hg p with ⟨h1, h2⟩ | ⟨s', hs', h1, h2⟩
        · refine .inl ⟨h1, ?_⟩
          intro s' hs' h
          rcases List.mem_cons.1 hs' with rfl | hs'
          · exact ⟨x, hr⟩
          · exact h2 s' hs' h
        · exact .inr ⟨s', by simp [hs'], h1, h2⟩
      | ok r =>
        have e1 : routine process suffix (s ++ '.' :: ext) g = g.write (resultFile suffix s) r := by
          rw [routine, hg, hr]
          simp only [C41_result_name he]
        have hg' : ∀ s', g.write (resultFile suffix s) r (s' ++ '.' :: ext) = fs (s' ++ '.' :: ext) := by
          intro s'
          rw [FS.write, if_neg (resultFile_ne he hp suffix s s'), hg]
        rw [e1]
        rcases ih _ hg' p with ⟨h1, h2⟩ | ⟨s', hs', h1, h2⟩
        · by_cases hps : p = resultFile suffix s
          · refine .inr ⟨s, by simp, hps, ?_⟩
            rw [h1, hr, FS.write, if_pos hps]
          · refine .inl ⟨?_, ?_⟩
            · rw [h1, FS.write, if_neg hps]
            · intro s' hs' h
              rcases List.mem_cons.1 hs' with rfl | hs'
              · exact absurd h hps
              · exact h2 s' hs' h
        · exact .inr ⟨s', by simp [hs'], h1, h2⟩
  intro files fs'
  have other : ∀ p, (∀ s ∈ stems, p ≠ resultFile suffix s) → fs' p = fs p := by
    intro p h
    rcases key stems fs (fun _ => rfl) p with ⟨h1, _⟩ | ⟨s', hs', h1, _⟩
    · exact h1
    · exact absurd h1 (h s' hs')
  refine ⟨?_, ?_, other, ?_, ?_⟩
  · intro s hs r hr
    rcases key stems fs (fun _ => rfl) (resultFile suffix s) with ⟨_, h2⟩ | ⟨s', hs', h1, h2⟩
    · obtain ⟨e, he⟩ := h2 s hs rfl
      rw [hr] at he
      exact absurd he (by simp)
    · rw [← resultFile_injective suffix h1, hr] at h2
      exact (Except.ok.inj h2).symm
  · intro s hs e hr
    rcases key stems fs (fun _ => rfl) (resultFile suffix s) with ⟨h1, _⟩ | ⟨s', hs', h1, h2⟩
    · exact h1
    · rw [← resultFile_injective suffix h1, hr] at h2
      exact absurd h2 (by simp)
  · intro f hf
    obtain ⟨s, _, rfl⟩ := List.mem_map.1 hf
    exact other _ fun s' _ => resultFile_ne he hp suffix s' s
  · intro s _ s' _ h h'
    exact h (by rw [resultFile_injective suffix h'])

/-- **C41**, limit: across invocations the names can coincide — two modes, or two back ends. -/
theorem C41_collision_across_invocations :
    outputName (lit "sparse") (lit "run/a.txt") = outputName (lit "sparse") (lit "run/a.qasm") ∧
    outputName (lit "cuda") (lit "run/a-sparse.txt") = outputName (lit "sparse-cuda") (lit "run/a.txt") := by
  decide +kernel

/-- Two circuit files, one failing: hypotheses met, and the other one's result is there. -/
example :
    let process : Text → Text → PyM Text := fun _ t => if t = lit "bad" then .error .exception else .ok (lit "R" ++ t)
    let fs : FS := fun p => if p = lit "d.1/a.b.txt" then lit "bad" else if p = lit "d.1/c.txt" then lit "good" else []
    batch process (lit "sparse") [lit "d.1/a.b.txt", lit "d.1/c.txt"] fs (lit "d.1/c-sparse.pkl") = lit "Rgood" :=
  (C41_batch (ext := lit "txt") (by decide) (by decide) _ (lit "sparse") [lit "d.1/a.b", lit "d.1/c"] _).1
    (lit "d.1/c") (by decide) _ (by decide +kernel)

/-! ## C42 -/

/-- **C42**, one file: the new contents are the old ones with the whole header inserted as lines of its own, and
before it there are only lines from the fixed list (encoding and interpreter lines). -/
theorem C42_header_inserted (year : Nat) (t : Text) :
    ∃ a b : List Text, fileLines t = a ++ b ∧ (∀ l ∈ a, l ∈ keep) ∧
      addHeader year t = a.flatten ++ (header year).flatten ++ b.flatten ∧
      fileLines (addHeader year t) = a ++ header year ++ b := by
  refine ⟨_, _, (List.take_append_drop (insertAt (fileLines t)) _).symm, insertAt_spec _, ?_, fileLines_addHeader year t⟩
  simp only [addHeader, List.flatten_append]

/-- **C42**, one file: all such lines at the start stay before the header, when some other line follows. -/
theorem C42_header_position (year : Nat) (t : Text) {a b : List Text} {l : Text} (h : fileLines t = a ++ l :: b)
    (ha : ∀ x ∈ a, x ∈ keep) (hl : l ∉ keep) : fileLines (addHeader year t) = a ++ header year ++ l :: b := by
  have hi : insertAt (fileLines t) = a.length := by
    rw [insertAt]
    have : (fileLines t).findIdx? (· ∉ keep) = some a.length := by
      rw [List.findIdx?_eq_some_iff_getElem]
      refine ⟨by simp [h], ?_, ?_⟩
      · simp [h, hl]
      · intro j hj
        have e : (fileLines t)[j]'(by simp [h]; omega) = a[j] := by simp [h, List.getElem_append_left hj]
        simp [e, ha]
    rw [this]
  rw [fileLines_addHeader, hi, h]
  simp

/-- **C42**, one file: in a file of such lines only, the header comes before the last one (so an encoding line that
ends the file is moved below the header). -/
theorem C42_all_kept (year : Nat) (t : Text) {a : List Text} {l : Text} (h : fileLines t = a ++ [l])
    (ha : ∀ x ∈ a, x ∈ keep) (hl : l ∈ keep) : fileLines (addHeader year t) = a ++ header year ++ [l] := by
  have hi : insertAt (fileLines t) = a.length := by
    have e : (fileLines t).findIdx? (· ∉ keep) = none := by
      rw [List.findIdx?_eq_none_iff]
      intro x hx
      rw [h] at hx
      simp only [decide_not, Bool.not_eq_eq_eq_not, Bool.not_false, decide_eq_true_eq]
      rcases List.mem_append.1 hx with hx | hx
      · exact ha x hx
      · rw [List.mem_singleton.1 hx]; exact hl
    rw [insertAt, e, h]
    simp
  rw [fileLines_addHeader, hi, h]
  simp

/-- **C42**, over any list of files: (1) each file is either untouched or had the header inserted exactly once,
however often it is listed; only listed files that `check` would report are changed; (2) afterwards `check`
reports nothing; (3) a second `fix` changes nothing. -/
theorem C42_fix (year : Nat) (paths : List Text) (fs : FS) :
    (∀ p, fix year paths fs p = if p ∈ check year paths fs then addHeader year (fs p) else fs p) ∧
    check year paths (fix year paths fs) = [] ∧
    fix year paths (fix year paths fs) = fix year paths fs := by
  have h1 : ∀ p, fix year paths fs p = if p ∈ check year paths fs then addHeader year (fs p) else fs p := by
    intro p
    rw [fix_apply]
    simp [check]
  have h2 : ∀ p ∈ paths, needsFix year p (fix year paths fs) = false := by
    intro p hp
    cases h : needsFix year p fs with
    | false =>
      have : fix year paths fs p = fs p := by rw [fix_apply, if_neg (by simp [h])]
      rw [← h]
      simp only [needsFix, this]
    | true =>
      have : fix year paths fs p = addHeader year (fs p) := by rw [fix_apply, if_pos ⟨hp, h⟩]
      simp only [needsFix, this, needsFix_addHeader, Bool.and_false]
  refine ⟨h1, ?_, ?_⟩
  · simp only [check, List.filter_eq_nil_iff]
    intro p hp
    simp [h2 p hp]
  · funext p
    rw [fix_apply, if_neg]
    rintro ⟨hp, h⟩
    rw [h2 p hp] at h
    exact absurd h (by simp)

/-- **C42**, what `check` accepts: exactly the files out of its scope and those in which, after some kept lines,
the header stands in full or the file ends within it. -/
theorem C42_check (year : Nat) (path : Text) (fs : FS) :
    needsFix year path fs = false ↔ pathChecked path = false ∨
      ∃ a b : List Text, (∀ l ∈ a, l ∈ keep) ∧ fileLines (fs path) = a ++ b ∧ b ≠ [] ∧
        (header year <+: b ∨ b <+: header year) := by
  have zip_iff : ∀ l b : List Text, (l.zip b).any (fun p => p.2 != p.1) = false ↔ l <+: b ∨ b <+: l := by
    intro l
    induction l with
    | nil => intro b; simp
    | cons x l ih =>
      intro b
      cases b with
      | nil => simp
      | cons y b =>
        rw [List.zip_cons_cons, List.any_cons, Bool.or_eq_false_iff, ih]
        simp only [bne_eq_false_iff_eq, List.cons_prefix_cons]
        constructor
        · rintro ⟨rfl, h⟩
          simpa using h
        · rintro (⟨rfl, h⟩ | ⟨rfl, h⟩)
          · exact ⟨rfl, .inl h⟩
          · exact ⟨rfl, .inr h⟩
  have lines : ∀ ls : List Text, needsFixLines (header year) ls = false ↔
      ∃ a b : List Text, (∀ l ∈ a, l ∈ keep) ∧ ls = a ++ b ∧ b ≠ [] ∧ (header year <+: b ∨ b <+: header year) := by
    intro ls
    induction ls with
    | nil =>
      constructor
      · intro h; exact absurd h (by simp [needsFixLines, header])
      · rintro ⟨a, b, _, h, hb, _⟩
        exact absurd (List.append_eq_nil_iff.1 h.symm).2 hb
    | cons l ls ih =>
      rw [needsFixLines]
      by_cases hl : (header year).head? = some l
      · rw [if_pos hl, zip_iff]
        constructor
        · intro h; exact ⟨[], l :: ls, by simp, rfl, by simp, h⟩
        · rintro ⟨a, b, ha, h, hb, hp⟩
          cases a with
          | nil => rw [h]; exact hp
          | cons x a =>
            simp only [List.cons_append, List.cons.injEq] at h
            exact absurd hl (h.1 ▸ header_ne_keep year x (ha x (by simp)))
      · rw [if_neg hl]
        by_cases hk : l ∈ keep
        · rw [if_pos hk, ih]
          constructor
          · rintro ⟨a, b, ha, h, hb, hp⟩
            exact ⟨l :: a, b, by simpa [hk] using ha, by rw [h]; rfl, hb, hp⟩
          · rintro ⟨a, b, ha, h, hb, hp⟩
            cases a with
            | nil =>
              exfalso
              rw [List.nil_append] at h
              subst h
              rw [header_head] at hl
              rcases hp with hp | hp
              · obtain ⟨t, ht⟩ := hp
                have := congrArg List.head? ht
                rw [List.head?_append, header_head] at this
                exact hl this
              · obtain ⟨t, ht⟩ := hp
                have := congrArg List.head? ht
                rw [header_head] at this
                exact hl this.symm
            | cons x a =>
              simp only [List.cons_append, List.cons.injEq] at h
              exact ⟨a, b, fun l hl => ha l (by simp [hl]), h.2, hb, hp⟩
        · rw [if_neg hk]
          constructor
          · intro h; exact absurd h (by simp)
          · rintro ⟨a, b, ha, h, hb, hp⟩
            exfalso
            cases a with
            | nil =>
              rw [List.nil_append] at h
              subst h
              rw [header_head] at hl
              rcases hp with hp | hp
              · obtain ⟨t, ht⟩ := hp
                have := congrArg List.head? ht
                rw [List.head?_append, header_head] at this
                exact hl this
              · obtain ⟨t, ht⟩ := hp
                have := congrArg List.head? ht
                rw [header_head] at this
                exact hl this.symm
            | cons x a =>
              simp only [List.cons_append, List.cons.injEq] at h
              exact hk (h.1 ▸ ha x (by simp))
  rw [needsFix, Bool.and_eq_false_iff, lines]

/-- **C42**, limit: in another year every file that already has the header is reported again, and `fix` puts a
second header before the first. -/
theorem C42_new_year {year year' : Nat} (h : year ≠ year') (t : Text) :
    needsFixLines (header year') (fileLines (addHeader year t)) = true ∧
    ∃ a b : List Text, fileLines t = a ++ b ∧
      fileLines (addHeader year' (addHeader year t)) = a ++ header year' ++ (header year ++ b) := by
  have hl := fileLines_addHeader year t
  have ha := insertAt_spec (fileLines t)
  refine ⟨?_, _, _, (List.take_append_drop (insertAt (fileLines t)) _).symm, ?_⟩
  · rw [hl, List.append_assoc, needsFix_skip (header_ne_keep year') ha]
    exact needsFix_other h _
  · have e : ∃ l, header year = first :: l := ⟨_, rfl⟩
    obtain ⟨l, e⟩ := e
    rw [e] at hl ⊢
    refine C42_header_position year' (addHeader year t) (l := first) (b := l ++ (fileLines t).drop _) ?_ ha first_not_keep
    rw [hl]
    simp

/-- **C42**, limit: a file holding only the first lines of the header is accepted. -/
theorem C42_truncated_header_accepted (year : Nat) (path : Text) (fs : FS) {k : Nat} (hk : 0 < k)
    (h : fs path = ((header year).take k).flatten) : needsFix year path fs = false := by
  rw [C42_check]
  refine .inr ⟨[], (header year).take k, by simp, ?_, ?_, .inr (List.take_prefix _ _)⟩
  · have := fileLines_append (ls := (header year).take k) (fun l hl => header_isLine year l (List.mem_of_mem_take hl)) []
    rw [List.append_nil] at this
    rw [h, this]
    simp [fileLines, universal, splitLines]
  · intro e
    have := congrArg List.length e
    rw [List.length_take, header_length] at this
    simp only [List.length_nil] at this
    omega

/-- **C42**, line ends. A file that holds the text `t` with each line end written in any of the three ways is reported, and
fixed, as if it held `t`. So a fixed file loses its own line ends: all of them are `\n` afterwards, and leaving out the header
gives the text `t`. A file that is not reported keeps them. -/
theorem C42_line_ends (year : Nat) (path : Text) (fs : FS) {t : Text} (h : Written t (fs path)) :
    needsFix year path fs = needsFix year path (fs.write path t) ∧
    (needsFix year path fs = true → ∃ a b : Text, t = a ++ b ∧
      fix year [path] fs path = a ++ (header year).flatten ++ b ∧ '\r' ∉ fix year [path] fs path) ∧
    (needsFix year path fs = false → fix year [path] fs path = fs path) := by
  have hr : '\r' ∉ t := by rw [← universal_written h]; exact not_mem_universal _
  have hl : fileLines (fs path) = fileLines t := by
    unfold fileLines
    rw [universal_written h, universal_eq hr]
  refine ⟨?_, ?_, ?_⟩
  · simp only [needsFix, FS.write, if_true, hl]
  · intro hn
    obtain ⟨a, b, h1, _, h2, _⟩ := C42_header_inserted year (fs path)
    have ht : t = a.flatten ++ b.flatten := by
      rw [← List.flatten_append, ← h1, flatten_fileLines, universal_written h]
    refine ⟨_, _, ht, ?_, ?_⟩
    · rw [fix_apply, if_pos (by simp [hn]), h2]
    · rw [fix_apply, if_pos (by simp [hn]), h2]
      intro hm
      rw [List.append_assoc, List.mem_append, List.mem_append] at hm
      rcases hm with hm | hm | hm
      · exact hr (by rw [ht]; simp [hm])
      · obtain ⟨l, hl, hm⟩ := List.mem_flatten.1 hm
        exact (header_isLine year l hl).no_cr hm
      · exact hr (by rw [ht]; simp [hm])
  · intro hn
    rw [fix_apply, if_neg (by simp [hn])]

/-- A file with Windows line ends. -/
example :
    let fs : FS := fun _ => lit "#!/usr/bin/env python\r\nimport os\r\n"
    Written (lit "#!/usr/bin/env python\nimport os\n") (fs (lit "/w/a.py")) ∧
    fix 2026 [lit "/w/a.py"] fs (lit "/w/a.py") =
      lit "#!/usr/bin/env python\n" ++ (header 2026).flatten ++ lit "import os\n" := by
  refine ⟨?_, by decide +kernel⟩
  have e : lit "#!/usr/bin/env python\r\nimport os\r\n" =
      withEnds (lit "\r\n") (lit "#!/usr/bin/env python\nimport os\n") := by decide +kernel
  show Written _ (lit "#!/usr/bin/env python\r\nimport os\r\n")
  rw [e]
  exact (C74_written (by decide +kernel)).2.1

/-- A file with an interpreter line, outside and inside the scope of the script. -/
example :
    let fs : FS := fun _ => lit "#!/usr/bin/env python\nimport os\n"
    check 2026 [lit "/w/a.py", lit "/w/a.txt", lit "/w/.git/a.py", lit "/w/a.py"] fs = [lit "/w/a.py", lit "/w/a.py"] ∧
    fix 2026 [lit "/w/a.py", lit "/w/a.txt", lit "/w/.git/a.py", lit "/w/a.py"] fs (lit "/w/a.py") =
      lit "#!/usr/bin/env python\n" ++ (header 2026).flatten ++ lit "import os\n" := by
  decide +kernel

end QuDiet.Tools
