import Verif.Crash
import Verif.Props.Tools

/-! # C75: the scripts stopped at any point -/

namespace QuDiet.Tools
open QuDiet.Qasm

theorem fix_cons (year : Nat) (p : Text) (paths : List Text) (fs : FS) :
    fix year (p :: paths) fs = fix year paths (fix year [p] fs) := rfl

/-- What `fix` does to a file depends on this file only. -/
theorem fix_local {year : Nat} {paths : List Text} {fs fs' : FS} {p : Text} (h : fs p = fs' p) :
    fix year paths fs p = fix year paths fs' p := by
  have e : needsFix year p fs = needsFix year p fs' := by simp only [needsFix, h]
  rw [fix_apply, fix_apply, e, h]

theorem fix_twice (year : Nat) (paths : List Text) (fs : FS) (p : Text) :
    fix year paths (fix year paths fs) p = fix year paths fs p := by
  rw [(C42_fix year paths fs).2.2]

/-- **C75.** Wherever `fix` is stopped, there is at most one file that is in neither of two states: as it was, or as
the complete `fix` would leave it. That file is one of those listed, and it holds a beginning of what it should
hold. -/
theorem C75_stopped {year : Nat} {paths : List Text} {fs fs' : FS} (h : FixStopped year paths fs fs') :
    (∀ q, fs' q = fs q ∨ fs' q = fix year paths fs q) ∨
    ∃ p ∈ paths, fs' p <+: fix year paths fs p ∧
      ∀ q, q ≠ p → fs' q = fs q ∨ fs' q = fix year paths fs q := by
  induction h with
  | here paths fs => exact .inl fun q => .inl rfl
  | @writing p paths fs part hp hpart =>
    refine .inr ⟨p, by simp, ?_, fun q hq => .inl (by simp [FS.write, hq])⟩
    rw [fix_apply, if_pos ⟨by simp, hp⟩]
    simpa [FS.write] using hpart
  | @later p paths fs fs' h ih =>
    have e := fix_cons year p paths fs
    have key : ∀ q, fs' q = fix year [p] fs q ∨ fs' q = fix year paths (fix year [p] fs) q →
        fs' q = fs q ∨ fs' q = fix year (p :: paths) fs q := by
      intro q hq
      rw [e]
      rcases hq with hq | hq
      · by_cases hqp : q = p
        · subst hqp
          refine .inr (hq.trans ?_)
          have e2 : fix year (q :: paths) fs q = fix year [q] fs q := by
            rw [fix_apply, fix_apply]
            simp
          rw [← e, e2]
        · refine .inl (hq.trans ?_)
          rw [fix_apply, if_neg (by simp [hqp])]
      · exact .inr hq
    rcases ih with ih | ⟨p', hp', hpre, hrest⟩
    · exact .inl fun q => key q (ih q)
    · exact .inr ⟨p', by simp [hp'], by rwa [e], fun q hq => key q (hrest q hq)⟩

/-- **C75.** Running `fix` again after it was stopped completes the work on all files, but for the one file that was
being written. -/
theorem C75_run_again {year : Nat} {paths : List Text} {fs fs' : FS} (h : FixStopped year paths fs fs') :
    (fix year paths fs' = fix year paths fs) ∨
    ∃ p ∈ paths, fs' p <+: fix year paths fs p ∧
      ∀ q, q ≠ p → fix year paths fs' q = fix year paths fs q := by
  have key : ∀ q, fs' q = fs q ∨ fs' q = fix year paths fs q → fix year paths fs' q = fix year paths fs q := by
    rintro q (hq | hq)
    · exact fix_local hq
    · rw [fix_local (fs' := fix year paths fs) hq, fix_twice]
  rcases C75_stopped h with h | ⟨p, hp, hpre, h⟩
  · exact .inl (funext fun q => key q (h q))
  · exact .inr ⟨p, hp, hpre, fun q hq => key q (h q hq)⟩

/-- **C75.** That file can be lost. Whatever a file in need of a header held (unless it starts with one of the lines
that stay above the header), `fix` can be stopped such that the file holds the first line of the header and nothing
else; `check` then accepts it and running `fix` again leaves it so. -/
theorem C75_file_lost {year : Nat} {p : Text} {paths : List Text} {fs : FS} (hp : needsFix year p fs = true)
    (hk : ∀ l ∈ (fileLines (fs p)).head?, l ∉ keep) :
    ∃ fs', FixStopped year (p :: paths) fs fs' ∧
      fs' p = lit "#               This file is part of the QuDiet package.\n" ∧
      p ∉ check year (p :: paths) fs' ∧ fix year (p :: paths) fs' p = fs' p := by
  have e1 : ((header year).take 1).flatten = lit "#               This file is part of the QuDiet package.\n" := by
    simp [header, List.flatten]
  have hpre : ((header year).take 1).flatten <+: addHeader year (fs p) := by
    have hi : insertAt (fileLines (fs p)) = 0 := by
      cases hl : fileLines (fs p) with
      | nil => rfl
      | cons l ls =>
        rw [hl] at hk
        have := hk l (by simp)
        rw [insertAt, List.findIdx?_cons, if_pos (by simpa using this)]
    rw [addHeader]
    simp only [hi, List.take_zero, List.nil_append, List.drop_zero, List.flatten_append]
    refine List.IsPrefix.trans ?_ (List.prefix_append _ _)
    conv_rhs => rw [← List.take_append_drop 1 (header year), List.flatten_append]
    exact List.prefix_append _ _
  have hn : needsFix year p (fs.write p ((header year).take 1).flatten) = false :=
    C42_truncated_header_accepted year p _ (k := 1) (by omega) (by simp [FS.write])
  refine ⟨_, .writing hp hpre, ?_, ?_, ?_⟩
  · rw [← e1]; simp [FS.write]
  · simp [check, hn]
  · rw [fix_apply, if_neg (by simp [hn])]

theorem batch_cons (process : Text → Text → PyM Text) (suffix f : Text) (files : List Text) (fs : FS) :
    batch process suffix (f :: files) fs = batch process suffix files (routine process suffix f fs) := rfl

theorem stopped_batch {ext : Text} (he : '.' ∉ ext) (hx : ext ≠ lit "pkl") {process : Text → Text → PyM Text}
    {suffix : Text} (F : Text → Text) {stems : List Text} {fs fs' : FS}
    (h : BatchStopped process suffix (stems.map fun s => s ++ '.' :: ext) fs fs')
    (hF : ∀ s, fs (s ++ '.' :: ext) = F s) :
    (∀ s, fs' (s ++ '.' :: ext) = F s) ∧
    ((∀ q, fs' q = fs q ∨ ∃ s ∈ stems, q = resultFile suffix s ∧ process (s ++ '.' :: ext) (F s) = .ok (fs' q)) ∨
      ∃ s ∈ stems, ∃ r, process (s ++ '.' :: ext) (F s) = .ok r ∧ fs' (resultFile suffix s) <+: r ∧
        ∀ q, q ≠ resultFile suffix s →
          fs' q = fs q ∨ ∃ s ∈ stems, q = resultFile suffix s ∧ process (s ++ '.' :: ext) (F s) = .ok (fs' q)) := by
  induction stems generalizing fs with
  | nil =>
    cases h
    exact ⟨hF, .inl fun q => .inl rfl⟩
  | cons s stems ih =>
    cases h with
    | here => exact ⟨hF, .inl fun q => .inl rfl⟩
    | @writing _ _ _ result part hr hpart =>
      rw [hF] at hr
      rw [C41_result_name he]
      have ew : ∀ q, q ≠ resultFile suffix s → fs.write (resultFile suffix s) part q = fs q := fun q hq => by
        simp [FS.write, hq]
      refine ⟨fun t => (ew _ (resultFile_ne he hx suffix s t)).trans (hF t), .inr ⟨s, by simp, result, hr, ?_, ?_⟩⟩
      · simpa [FS.write] using hpart
      · exact fun q hq => .inl (ew q hq)
    | later h =>
      have e : ∀ q, routine process suffix (s ++ '.' :: ext) fs q = fs q ∨
          (q = resultFile suffix s ∧ process (s ++ '.' :: ext) (F s) = .ok (routine process suffix (s ++ '.' :: ext) fs q)) := by
        intro q
        rw [routine, hF, C41_result_name he]
        cases hp : process (s ++ '.' :: ext) (F s) with
        | error e => exact .inl rfl
        | ok r =>
          by_cases hq : q = resultFile suffix s
          · exact .inr ⟨hq, by simp [FS.write, hq]⟩
          · exact .inl (by simp [FS.write, hq])
      obtain ⟨h1, h2⟩ := ih h fun t => ((e _).resolve_right fun h => resultFile_ne he hx suffix s t h.1).trans (hF t)
      have key : ∀ q, (fs' q = routine process suffix (s ++ '.' :: ext) fs q ∨
            ∃ t ∈ stems, q = resultFile suffix t ∧ process (t ++ '.' :: ext) (F t) = .ok (fs' q)) →
          fs' q = fs q ∨ ∃ t ∈ s :: stems, q = resultFile suffix t ∧ process (t ++ '.' :: ext) (F t) = .ok (fs' q) := by
        rintro q (hq | ⟨t, ht, hq⟩)
        · rcases e q with h | ⟨h, h'⟩
          · exact .inl (hq.trans h)
          · exact .inr ⟨s, by simp, h, by rw [hq]; exact h'⟩
        · exact .inr ⟨t, by simp [ht], hq⟩
      refine ⟨h1, ?_⟩
      rcases h2 with h2 | ⟨t, ht, r, hr, hpre, h2⟩
      · exact .inl fun q => key q (h2 q)
      · exact .inr ⟨t, by simp [ht], r, hr, hpre, fun q hq => key q (h2 q hq)⟩

/-- **C75.** Wherever a batch over files `stem.ext` is stopped: no circuit file is touched; every file is as it was or
as the complete batch would leave it, but for at most one, a result file, which holds a beginning of its result; and
running the batch again completes all results. -/
theorem C75_batch {ext : Text} (he : '.' ∉ ext) (hx : ext ≠ lit "pkl") {process : Text → Text → PyM Text} {suffix : Text}
    {stems : List Text} {fs fs' : FS}
    (h : BatchStopped process suffix (stems.map fun s => s ++ '.' :: ext) fs fs') :
    let files := stems.map fun s => s ++ '.' :: ext
    (∀ f ∈ files, fs' f = fs f) ∧
    ((∀ q, fs' q = fs q ∨ fs' q = batch process suffix files fs q) ∨
      ∃ s ∈ stems, fs' (resultFile suffix s) <+: batch process suffix files fs (resultFile suffix s) ∧
        ∀ q, q ≠ resultFile suffix s → fs' q = fs q ∨ fs' q = batch process suffix files fs q) ∧
    batch process suffix files fs' = batch process suffix files fs := by
  intro files
  obtain ⟨h1, h2⟩ := stopped_batch he hx (fun s => fs (s ++ '.' :: ext)) h fun _ => rfl
  obtain ⟨b1, b2, b3, _⟩ := C41_batch he hx process suffix stems fs
  obtain ⟨c1, c2, c3, _⟩ := C41_batch he hx process suffix stems fs'
  have done : ∀ q, (∃ s ∈ stems, q = resultFile suffix s ∧ process (s ++ '.' :: ext) (fs (s ++ '.' :: ext)) = .ok (fs' q)) →
      fs' q = batch process suffix files fs q := by
    rintro q ⟨s, hs, rfl, hr⟩
    exact (b1 s hs _ hr).symm
  refine ⟨?_, ?_, ?_⟩
  · intro f hf
    obtain ⟨s, _, rfl⟩ := List.mem_map.1 hf
    exact h1 s
  · rcases h2 with h2 | ⟨s, hs, r, hr, hpre, h2⟩
    · exact .inl fun q => (h2 q).imp id (done q)
    · exact .inr ⟨s, hs, by rw [b1 s hs r hr]; exact hpre, fun q hq => (h2 q hq).imp id (done q)⟩
  · funext q
    by_cases hq : ∃ s ∈ stems, q = resultFile suffix s
    · obtain ⟨s, hs, rfl⟩ := hq
      cases hp : process (s ++ '.' :: ext) (fs (s ++ '.' :: ext)) with
      | ok r => rw [b1 s hs r hp, c1 s hs r (by rw [h1 s]; exact hp)]
      | error e =>
        rw [b2 s hs e hp, c2 s hs e (by rw [h1 s]; exact hp)]
        have other : ∀ t, resultFile suffix s = resultFile suffix t →
            ∀ r, process (t ++ '.' :: ext) (fs (t ++ '.' :: ext)) ≠ .ok r := by
          intro t ht r hr
          rw [← resultFile_injective suffix ht, hp] at hr
          cases hr
        rcases h2 with h2 | ⟨t, ht, r, hr, hpre, h2⟩
        · rcases h2 (resultFile suffix s) with h | ⟨t, _, ht, hr⟩
          · exact h
          · exact absurd hr (other t ht _)
        · by_cases hst : resultFile suffix s = resultFile suffix t
          · exact absurd hr (other t hst _)
          · rcases h2 _ hst with h | ⟨t, _, ht, hr⟩
            · exact h
            · exact absurd hr (other t ht _)
    · have hq' : ∀ s ∈ stems, q ≠ resultFile suffix s := fun s hs h => hq ⟨s, hs, h⟩
      rw [b3 q hq', c3 q hq']
      rcases h2 with h2 | ⟨t, ht, r, hr, hpre, h2⟩
      · rcases h2 q with h | ⟨t, ht, e, _⟩
        · exact h
        · exact absurd e (hq' t ht)
      · rcases h2 q (hq' t ht) with h | ⟨t, ht, e, _⟩
        · exact h
        · exact absurd e (hq' t ht)

/-- A script stopped in its second file, of which a part was written. -/
example :
    let fs : FS := fun p => if p = lit "/w/a.py" then lit "import os\n" else lit "x = 1\n"
    FixStopped 2026 [lit "/w/a.py", lit "/w/b.py", lit "/w/c.py"] fs
      ((fix 2026 [lit "/w/a.py"] fs).write (lit "/w/b.py") (lit "# ")) ∧
    (fix 2026 [lit "/w/a.py"] fs).write (lit "/w/b.py") (lit "# ") (lit "/w/b.py") ≠ fs (lit "/w/b.py") := by
  refine ⟨.later (.writing (by decide +kernel) (by decide +kernel)), by decide +kernel⟩

/-- A file that can be lost. -/
example : ∃ fs', FixStopped 2026 [lit "/w/a.py"] (fun _ => lit "import os\n") fs' ∧
    fs' (lit "/w/a.py") = lit "#               This file is part of the QuDiet package.\n" ∧
    lit "/w/a.py" ∉ check 2026 [lit "/w/a.py"] fs' ∧ fix 2026 [lit "/w/a.py"] fs' (lit "/w/a.py") = fs' (lit "/w/a.py") :=
  C75_file_lost (by decide +kernel) (by decide +kernel)

/-- A batch stopped in its second result. -/
example :
    let process : Text → Text → PyM Text := fun _ t => .ok (lit "R" ++ t)
    let fs : FS := fun p => if p = lit "a.txt" then lit "1" else if p = lit "b.txt" then lit "2" else []
    BatchStopped process (lit "sparse") ([lit "a", lit "b"].map fun s => s ++ '.' :: lit "txt") fs
      ((routine process (lit "sparse") (lit "a.txt") fs).write (outputName (lit "sparse") (lit "b.txt")) (lit "R")) :=
  .later (.writing (result := lit "R2") (by decide +kernel) (by decide +kernel))

end QuDiet.Tools
