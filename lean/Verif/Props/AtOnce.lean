import Verif.Lemmas.Runs

/-! # C95: the scripts running at the same time -/

namespace QuDiet.Tools
open QuDiet.Qasm

/-! ### Specification -/

/-- An invocation of a script: license-headers.py `fix` or `check` in some year on a list of files, or experimental.py on the files
`stem.ext`, with a result for each file and contents that does not fail and the name of a backend. -/
inductive Job where
  | fix (year : Nat) (paths : List Text)
  | check (year : Nat) (paths : List Text)
  | batch (process : Text → Text → PyM Text) (backend ext : Text) (stems : List Text)

/-- Its steps. -/
def Job.prog : Job → Prog
  | .fix year paths => fixProg year paths
  | .check year paths => checkProg year paths []
  | .batch process backend ext stems => batchProg process backend (stems.map fun s => s ++ '.' :: ext)

/-- What it does when nothing else runs (C41, C42). -/
def Job.effect : Job → FS → FS
  | .fix year paths, fs => Tools.fix year paths fs
  | .check _ _, fs => fs
  | .batch process backend ext stems, fs => Tools.batch process backend (stems.map fun s => s ++ '.' :: ext) fs

/-- What it reports when nothing else runs. -/
def Job.report : Job → FS → List Text
  | .check year paths, fs => Tools.check year paths fs
  | _, _ => []

/-- The mode of experimental.py is `txt` or `qasm`. -/
def Job.Ok : Job → Prop
  | .batch _ _ ext _ => ext = lit "txt" ∨ ext = lit "qasm"
  | _ => True

/-- Two invocations that get into each other's way: a file that one of them gives a header is looked at by the other, or they have
a result file in common. -/
def Clash (fs : FS) : Job → Job → Prop
  | .fix year paths, .fix year' paths' => ∃ p ∈ paths, p ∈ paths' ∧ (needsFix year p fs = true ∨ needsFix year' p fs = true)
  | .fix year paths, .check _ paths' => ∃ p ∈ paths, p ∈ paths' ∧ needsFix year p fs = true
  | .check _ paths', .fix year paths => ∃ p ∈ paths, p ∈ paths' ∧ needsFix year p fs = true
  | .batch _ backend _ stems, .batch _ backend' _ stems' => ∃ s ∈ stems, ∃ s' ∈ stems', resultFile backend s = resultFile backend' s'
  | _, _ => False

/-! ### Which files they use -/

theorem fix_written {year : Nat} {paths : List Text} {fs : FS} {q : Text} (h : q ∈ (fixProg year paths).written fs) :
    q ∈ paths ∧ needsFix year q fs = true := by
  induction paths generalizing fs with
  | nil => simp [fixProg, Prog.written] at h
  | cons p ps ih =>
    rw [fixProg] at h
    by_cases hp : pathChecked p = true
    · rw [if_pos hp] at h
      simp only [Prog.written] at h
      by_cases hn : needsFixLines (header year) (fileLines (fs p)) = true
      · rw [if_pos hn] at h
        simp only [Prog.written, write_write, List.mem_cons] at h
        by_cases hq : q = p
        · subst hq
          exact ⟨by simp, by simp [needsFix, hp, hn]⟩
        · obtain ⟨h1, h2⟩ := ih (by simpa [hq] using h)
          rw [needsFix, write_ne _ _ hq] at h2
          exact ⟨by simp [h1], h2⟩
      · rw [if_neg hn] at h
        exact ⟨by simp [(ih h).1], (ih h).2⟩
    · rw [if_neg hp] at h
      exact ⟨by simp [(ih h).1], (ih h).2⟩

theorem fix_used {year : Nat} {paths : List Text} {fs : FS} {q : Text} (h : q ∈ (fixProg year paths).used fs) :
    q ∈ paths ∧ pathChecked q = true := by
  induction paths generalizing fs with
  | nil => simp [fixProg, Prog.used] at h
  | cons p ps ih =>
    rw [fixProg] at h
    by_cases hp : pathChecked p = true
    · rw [if_pos hp] at h
      simp only [Prog.used] at h
      by_cases hq : q = p
      · subst hq; exact ⟨by simp, hp⟩
      by_cases hn : needsFixLines (header year) (fileLines (fs p)) = true
      · rw [if_pos hn] at h
        simp only [Prog.used, List.mem_cons, hq, false_or] at h
        exact ⟨by simp [(ih h).1], (ih h).2⟩
      · rw [if_neg hn] at h
        simp only [List.mem_cons, hq, false_or] at h
        exact ⟨by simp [(ih h).1], (ih h).2⟩
    · rw [if_neg hp] at h
      exact ⟨by simp [(ih h).1], (ih h).2⟩

theorem check_written (year : Nat) (paths found : List Text) (fs : FS) : (checkProg year paths found).written fs = [] := by
  induction paths generalizing found with
  | nil => rfl
  | cons p ps ih =>
    rw [checkProg]
    split
    · exact ih _
    · exact ih _

theorem check_used {year : Nat} {paths found : List Text} {fs : FS} {q : Text} (h : q ∈ (checkProg year paths found).used fs) :
    q ∈ paths ∧ pathChecked q = true := by
  induction paths generalizing found with
  | nil => simp [checkProg, Prog.used] at h
  | cons p ps ih =>
    rw [checkProg] at h
    by_cases hp : pathChecked p = true
    · rw [if_pos hp] at h
      simp only [Prog.used, List.mem_cons] at h
      rcases h with rfl | h
      · exact ⟨by simp, hp⟩
      · exact ⟨by simp [(ih h).1], (ih h).2⟩
    · rw [if_neg hp] at h
      exact ⟨by simp [(ih h).1], (ih h).2⟩

theorem batch_written {process : Text → Text → PyM Text} {suffix : Text} {files : List Text} {fs : FS} {q : Text}
    (h : q ∈ (batchProg process suffix files).written fs) : ∃ f ∈ files, q = outputName suffix f := by
  induction files generalizing fs with
  | nil => simp [batchProg, Prog.written] at h
  | cons f files ih =>
    rw [batchProg] at h
    simp only [Prog.written] at h
    cases hp : process f (fs f) with
    | error e =>
      rw [hp] at h
      obtain ⟨f', h1, h2⟩ := ih h
      exact ⟨f', by simp [h1], h2⟩
    | ok r =>
      rw [hp] at h
      simp only [Prog.written, List.mem_cons] at h
      rcases h with h | h | h
      · exact ⟨f, by simp, h⟩
      · exact ⟨f, by simp, h⟩
      · obtain ⟨f', h1, h2⟩ := ih h
        exact ⟨f', by simp [h1], h2⟩

theorem batch_used {process : Text → Text → PyM Text} {suffix : Text} {files : List Text} {fs : FS} {q : Text}
    (h : q ∈ (batchProg process suffix files).used fs) : ∃ f ∈ files, q = f ∨ q = outputName suffix f := by
  induction files generalizing fs with
  | nil => simp [batchProg, Prog.used] at h
  | cons f files ih =>
    rw [batchProg] at h
    simp only [Prog.used, List.mem_cons] at h
    rcases h with h | h
    · exact ⟨f, by simp, .inl h⟩
    cases hp : process f (fs f) with
    | error e =>
      rw [hp] at h
      obtain ⟨f', h1, h2⟩ := ih h
      exact ⟨f', by simp [h1], h2⟩
    | ok r =>
      rw [hp] at h
      simp only [Prog.used, List.mem_cons] at h
      rcases h with h | h | h
      · exact ⟨f, by simp, .inr h⟩
      · exact ⟨f, by simp, .inr h⟩
      · obtain ⟨f', h1, h2⟩ := ih h
        exact ⟨f', by simp [h1], h2⟩

theorem checked_last {q : Text} (h : pathChecked q = true) : q.getLast? ∈ [some 'y', some 'i', some '\n'] := by
  rw [pathChecked, Bool.and_eq_true, List.any_eq_true] at h
  obtain ⟨⟨s, hs, hq⟩, _⟩ := h
  obtain ⟨a, rfl⟩ := List.isSuffixOf_iff_suffix.1 hq
  simp only [List.mem_cons, List.not_mem_nil, or_false] at hs
  rcases hs with rfl | rfl | rfl | rfl <;> rw [List.getLast?_append] <;> simp [lit]

theorem result_last (backend s : Text) : (resultFile backend s).getLast? = some 'l' := by
  rw [resultFile, List.getLast?_append]
  rfl

theorem circuit_last {ext : Text} (h : ext = lit "txt" ∨ ext = lit "qasm") (s : Text) :
    (s ++ '.' :: ext).getLast? ∈ [some 't', some 'm'] := by
  rcases h with rfl | rfl <;> rw [List.getLast?_append] <;> simp [lit]

theorem noDot {ext : Text} (h : ext = lit "txt" ∨ ext = lit "qasm") : '.' ∉ ext ∧ ext ≠ lit "pkl" := by
  rcases h with rfl | rfl <;> decide

theorem checked_ne_result {q : Text} (h : pathChecked q = true) (backend s : Text) : q ≠ resultFile backend s := by
  rintro rfl
  have := checked_last h
  rw [result_last] at this
  revert this
  decide

theorem checked_ne_circuit {q : Text} (h : pathChecked q = true) {ext : Text} (he : ext = lit "txt" ∨ ext = lit "qasm") (s : Text) :
    q ≠ s ++ '.' :: ext := by
  rintro rfl
  have h1 := checked_last h
  have h2 := circuit_last he s
  revert h1 h2
  generalize (s ++ '.' :: ext).getLast? = o
  intro h1 h2
  simp only [List.mem_cons, List.not_mem_nil, or_false] at h1 h2
  rcases h1 with rfl | rfl | rfl <;> revert h2 <;> decide

theorem Job.written_batch {process : Text → Text → PyM Text} {backend ext : Text} {stems : List Text}
    (h : ext = lit "txt" ∨ ext = lit "qasm") {fs : FS} {q : Text} (hq : q ∈ (Job.batch process backend ext stems).prog.written fs) :
    ∃ s ∈ stems, q = resultFile backend s := by
  obtain ⟨f, hf, rfl⟩ := batch_written hq
  obtain ⟨s, hs, rfl⟩ := List.mem_map.1 hf
  exact ⟨s, hs, C41_result_name (noDot h).1 _ _⟩

theorem Job.used_batch {process : Text → Text → PyM Text} {backend ext : Text} {stems : List Text}
    (h : ext = lit "txt" ∨ ext = lit "qasm") {fs : FS} {q : Text} (hq : q ∈ (Job.batch process backend ext stems).prog.used fs) :
    ∃ s ∈ stems, q = s ++ '.' :: ext ∨ q = resultFile backend s := by
  obtain ⟨f, hf, hq⟩ := batch_used hq
  obtain ⟨s, hs, rfl⟩ := List.mem_map.1 hf
  rw [C41_result_name (noDot h).1] at hq
  exact ⟨s, hs, hq⟩

theorem Job.run_prog (j : Job) (fs : FS) : j.prog.run fs = (j.effect fs, j.report fs) := by
  cases j with
  | fix year paths => exact run_fix _ _ _
  | check year paths => exact run_check _ _ _ _
  | batch process backend ext stems => exact run_batch _ _ _ _

variable {ι : Type} [DecidableEq ι]

theorem jobs_apart {job : ι → Job} (hok : ∀ i, (job i).Ok) {fs : FS} (hc : ∀ i k, i ≠ k → ¬ Clash fs (job i) (job k)) :
    Apart (fun i => (job i).prog) fs := by
  intro i k hik q hw hu
  have hc := hc i k hik
  have hi := hok i
  have hk := hok k
  simp only at hw hu
  generalize job i = a at *
  generalize job k = b at *
  cases a with
  | check year paths => simp [Job.prog, check_written] at hw
  | fix year paths =>
    obtain ⟨w1, w2⟩ := fix_written hw
    cases b with
    | fix year' paths' => exact hc ⟨q, w1, (fix_used hu).1, .inl w2⟩
    | check year' paths' => exact hc ⟨q, w1, (check_used hu).1, w2⟩
    | batch process backend ext stems =>
      have hp : pathChecked q = true := (fix_used (Prog.written_used _ _ q hw)).2
      obtain ⟨s, _, h | h⟩ := Job.used_batch hk hu
      · exact checked_ne_circuit hp hk s h
      · exact checked_ne_result hp backend s h
  | batch process backend ext stems =>
    obtain ⟨s, hs, rfl⟩ := Job.written_batch hi hw
    cases b with
    | fix year' paths' => exact checked_ne_result (fix_used hu).2 backend s rfl
    | check year' paths' => exact checked_ne_result (check_used hu).2 backend s rfl
    | batch process' backend' ext' stems' =>
      obtain ⟨s', hs', h | h⟩ := Job.used_batch hk hu
      · exact resultFile_ne (noDot hk).1 (noDot hk).2 backend s s' h.symm
      · exact hc ⟨s, hs, s', hs', h⟩

/-- **C95.** Any number of invocations of the scripts that do not get into each other's way, run at the same time in any order of
their steps: what each reports is what it reports alone, and when all have ended, the files are as if the invocations had run one
after the other, in whatever order. -/
theorem C95_any_order {job : ι → Job} (hok : ∀ i, (job i).Ok) {fs : FS} (hc : ∀ i k, i ≠ k → ¬ Clash fs (job i) (job k))
    {ps : ι → Proc} {fs' : FS} (h : AtOnce (fun i => .at (job i).prog) fs ps fs') :
    (∀ i out, ps i = .at (.stop out) → out = (job i).report fs) ∧
    ((∀ i, ∃ out, ps i = .at (.stop out)) → ∀ order : List ι, order.Nodup → (∀ i, i ∈ order) →
      fs' = order.foldl (fun fs i => (job i).effect fs) fs) := by
  have ha := jobs_apart hok hc
  obtain ⟨⟨own, hown⟩, hrest⟩ := atOnce_inv ha h
  have hend : ∀ i out, ps i = .at (.stop out) → own i = (job i).effect fs ∧ out = (job i).report fs := by
    intro i out he
    have := (hown i).2.2.1
    rw [he, Job.run_prog] at this
    exact Prod.mk.injEq _ _ _ _ ▸ this
  refine ⟨fun i out he => (hend i out he).2, fun hall order hnd hmem => ?_⟩
  have e : (fun fs i => (job i).effect fs) = fun fs i => ((job i).prog.run fs).1 := by
    funext fs i
    rw [Job.run_prog]
  rw [e]
  funext q
  obtain ⟨s1, s2⟩ := sequence_apply ha hnd (fs := fs) (fun _ _ _ _ => rfl) q
  by_cases hq : ∃ i, q ∈ (job i).prog.written fs
  · obtain ⟨i, hi⟩ := hq
    obtain ⟨out, ho⟩ := hall i
    have hu := Prog.written_used _ _ q hi
    rw [s1 i (hmem i) hu fun k _ hki hk => ha k i hki q hk hu, Job.run_prog, ← (hend i out ho).1]
    exact (hown i).2.2.2.2.2 q hu
  · have hq' : ∀ i, q ∉ (job i).prog.written fs := fun i hi => hq ⟨i, hi⟩
    rw [s2 fun i _ => hq' i]
    exact hrest q hq'

/-! ### Stopped at any moment -/

/-- The files in which an invocation can be stopped. -/
inductive Prog.Stopped : Prog → FS → FS → Prop
  | here {g fs} : Stopped g fs fs
  | read {p k fs fs'} (h : Stopped (k (fs p)) fs fs') : Stopped (.read p k) fs fs'
  | empty {p k fs fs'} (h : Stopped k (fs.write p []) fs') : Stopped (.empty p k) fs fs'
  | part {p t k fs} {part : Text} (h : part <+: t) : Stopped (.put p t k) fs (fs.write p (patch (fs p) 0 part))
  | put {p t k fs fs'} (h : Stopped k (fs.write p (patch (fs p) 0 t)) fs') : Stopped (.put p t k) fs fs'

def Proc.Stopped : Proc → FS → FS → Prop
  | .at g, fs, x => g.Stopped fs x
  | .reading p _ k, fs, x => (k (fs p)).Stopped fs x
  | .putting p n rest k, fs, x => (∃ part, part <+: rest ∧ x = fs.write p (patch (fs p) n part)) ∨
      k.Stopped (fs.write p (patch (fs p) n rest)) x

theorem Step.stopped {pr pr' : Proc} {fs fs' x : FS} (h : Step pr fs pr' fs') (hs : pr.Sound fs) (hx : pr'.Stopped fs' x) :
    pr.Stopped fs x := by
  cases h with
  | «open» => exact .read hx
  | more h => exact hx
  | @eof p got k fs h =>
    obtain ⟨r, hr⟩ := hs
    have e : got = fs p := by
      rw [← hr] at h ⊢
      simp at h
      simp [h]
    subst e
    exact hx
  | empty => exact .empty hx
  | start =>
    rcases hx with ⟨part, hp, rfl⟩ | hx
    · exact .part hp
    · exact .put hx
  | @write p n k fs a b =>
    rcases hx with ⟨part, hp, rfl⟩ | hx
    · exact .inl ⟨a ++ part, List.prefix_append_right_inj a |>.2 hp, by rw [write_write, write_same, patch_patch]⟩
    · rw [write_write, write_same, patch_patch] at hx
      exact .inr hx
  | close => exact .inr (by rw [patch_nil, write_self]; exact hx)

theorem Proc.stopped_here (pr : Proc) (fs : FS) : pr.Stopped fs fs := by
  cases pr with
  | «at» g => exact .here
  | reading p got k => exact .here
  | putting p n rest k => exact .inl ⟨[], List.nil_prefix, by rw [patch_nil, write_self]⟩

theorem Alone.stopped {g : Prog} {fs : FS} {pr : Proc} {own : FS} (h : Alone (.at g) fs pr own) :
    pr.Sound own ∧ ∀ x, pr.Stopped own x → g.Stopped fs x := by
  generalize hp : Proc.at g = pr₀ at h
  induction h with
  | refl => subst hp; exact ⟨trivial, fun x hx => hx⟩
  | step _ hs ih => exact ⟨(hs.solo ih.1).1, fun x hx => ih.2 x (hs.stopped ih.1 hx)⟩

theorem patch_zero_nil (t : Text) : patch [] 0 t = t := by
  by_cases h : t = [] <;> simp [patch, h]

theorem stopped_fix {year : Nat} {paths : List Text} {fs x : FS} (h : (fixProg year paths).Stopped fs x) :
    FixStopped year paths fs x := by
  induction paths generalizing fs with
  | nil => cases h; exact .here _ _
  | cons p ps ih =>
    by_cases hn : needsFix year p fs = true
    · have hp : pathChecked p = true ∧ needsFixLines (header year) (fileLines (fs p)) = true := by
        simpa [needsFix] using hn
      have e : fix year [p] fs = fs.write p (addHeader year (fs p)) := by
        show (if needsFix year p fs then _ else _) = _
        rw [if_pos hn]
      rw [fixProg, if_pos hp.1] at h
      cases h with
      | here => exact .here _ _
      | read h =>
        beta_reduce at h
        rw [if_pos hp.2] at h
        cases h with
        | here => exact .here _ _
        | read h =>
          cases h with
          | here => exact .here _ _
          | empty h =>
            cases h with
            | here => exact .writing hn List.nil_prefix
            | empty h =>
              rw [write_write] at h
              cases h with
              | here => exact .writing hn List.nil_prefix
              | part hpart =>
                rw [write_write, write_same, patch_zero_nil]
                exact .writing hn hpart
              | put h =>
                rw [write_write, write_same, patch_zero_nil, ← e] at h
                exact .later (ih h)
    · have e : fix year [p] fs = fs := by
        show (if needsFix year p fs then _ else _) = _
        rw [if_neg hn]
      have rest : (fixProg year ps).Stopped fs x → FixStopped year (p :: ps) fs x := fun h => .later (by rw [e]; exact ih h)
      rw [fixProg] at h
      by_cases hp : pathChecked p = true
      · rw [if_pos hp] at h
        cases h with
        | here => exact .here _ _
        | read h =>
          beta_reduce at h
          rw [if_neg (by simpa [needsFix, hp] using hn)] at h
          exact rest h
      · rw [if_neg hp] at h
        exact rest h

theorem stopped_batch_prog {process : Text → Text → PyM Text} {suffix : Text} {files : List Text} {fs x : FS}
    (h : (batchProg process suffix files).Stopped fs x) : BatchStopped process suffix files fs x := by
  induction files generalizing fs with
  | nil => cases h; exact .here _ _
  | cons f files ih =>
    rw [batchProg] at h
    cases h with
    | here => exact .here _ _
    | read h =>
      beta_reduce at h
      cases hp : process f (fs f) with
      | error e =>
        rw [hp] at h
        exact .later (by rw [routine, hp]; exact ih h)
      | ok r =>
        rw [hp] at h
        cases h with
        | here => exact .here _ _
        | empty h =>
          cases h with
          | here => exact .writing hp List.nil_prefix
          | part hpart =>
            rw [write_write, write_same, patch_zero_nil]
            exact .writing hp hpart
          | put h =>
            rw [write_write, write_same, patch_zero_nil] at h
            exact .later (by rw [routine, hp]; exact ih h)

theorem fix_uses {year : Nat} {paths : List Text} {fs : FS} {q : Text} (h : q ∈ paths) (hq : pathChecked q = true) :
    q ∈ (fixProg year paths).used fs := by
  induction paths generalizing fs with
  | nil => simp at h
  | cons p ps ih =>
    rw [fixProg]
    rcases List.mem_cons.1 h with rfl | h
    · rw [if_pos hq]
      exact List.mem_cons_self
    · split
      · refine List.mem_cons_of_mem _ ?_
        beta_reduce
        split
        · exact List.mem_cons_of_mem _ (List.mem_cons_of_mem _ (List.mem_cons_of_mem _ (List.mem_cons_of_mem _ (ih h))))
        · exact ih h
      · exact ih h

theorem batch_uses {ext : Text} (he : ext = lit "txt" ∨ ext = lit "qasm") {process : Text → Text → PyM Text} {suffix : Text}
    (F : Text → Text) {stems : List Text} {fs : FS} (hF : ∀ s, fs (s ++ '.' :: ext) = F s) {s : Text} (hs : s ∈ stems) {r : Text}
    (hr : process (s ++ '.' :: ext) (F s) = .ok r) :
    resultFile suffix s ∈ (batchProg process suffix (stems.map fun s => s ++ '.' :: ext)).used fs := by
  induction stems generalizing fs with
  | nil => simp at hs
  | cons s' stems ih =>
    rw [List.map_cons, batchProg]
    refine List.mem_cons_of_mem _ ?_
    beta_reduce
    rw [hF]
    cases hp : process (s' ++ '.' :: ext) (F s') with
    | error e =>
      rcases List.mem_cons.1 hs with rfl | hs
      · rw [hp] at hr; cases hr
      · exact ih hF hs
    | ok r' =>
      simp only [Prog.used, List.mem_cons, C41_result_name (noDot he).1]
      rcases List.mem_cons.1 hs with rfl | hs
      · exact .inl rfl
      · refine .inr (.inr (ih (fun t => ?_) hs))
        have hne := resultFile_ne (noDot he).1 (noDot he).2 suffix s' t
        rw [write_ne _ _ hne, write_ne _ _ hne]
        exact hF t

/-- **C95.** The same when all of them are stopped at any moment: the files that a `fix` gives headers are as if it had been stopped
while running alone (what this means is C75), so are the result files of each batch, and all other files are as they were. -/
theorem C95_stopped {job : ι → Job} (hok : ∀ i, (job i).Ok) {fs : FS} (hc : ∀ i k, i ≠ k → ¬ Clash fs (job i) (job k))
    {ps : ι → Proc} {fs' : FS} (h : AtOnce (fun i => .at (job i).prog) fs ps fs') :
    (∀ i year paths, job i = .fix year paths →
      ∃ own, FixStopped year paths fs own ∧ ∀ p ∈ paths, needsFix year p fs = true → fs' p = own p) ∧
    (∀ i process backend ext stems, job i = .batch process backend ext stems →
      ∃ own, BatchStopped process backend (stems.map fun s => s ++ '.' :: ext) fs own ∧
        ∀ s ∈ stems, (∃ r, process (s ++ '.' :: ext) (fs (s ++ '.' :: ext)) = .ok r) →
          fs' (resultFile backend s) = own (resultFile backend s)) ∧
    ∀ p, (∀ i year paths, job i = .fix year paths → p ∈ paths → needsFix year p fs = false) →
      (∀ i process backend ext stems, job i = .batch process backend ext stems → ∀ s ∈ stems, p ≠ resultFile backend s) →
      fs' p = fs p := by
  obtain ⟨⟨own, hown⟩, hrest⟩ := atOnce_inv (jobs_apart hok hc) h
  have hst : ∀ i, (job i).prog.Stopped fs (own i) := fun i => (hown i).1.stopped.2 _ (Proc.stopped_here _ _)
  refine ⟨fun i year paths hj => ?_, fun i process backend ext stems hj => ?_, fun p h1 h2 => hrest p fun i hi => ?_⟩
  · have h1 := hst i
    have h2 := (hown i).2.2.2.2.2
    rw [hj] at h1 h2
    refine ⟨own i, stopped_fix h1, fun p hp hn => h2 p (fix_uses hp ?_)⟩
    rw [needsFix, Bool.and_eq_true] at hn
    exact hn.1
  · have h1 := hst i
    have h2 := (hown i).2.2.2.2.2
    have h3 := hok i
    rw [hj] at h1 h2 h3
    exact ⟨own i, stopped_batch_prog h1, fun s hs ⟨r, hr⟩ =>
      h2 _ (batch_uses h3 (fun s => fs (s ++ '.' :: ext)) (fun _ => rfl) hs hr)⟩
  · have h3 := hok i
    cases hj : job i with
    | check year paths => rw [hj] at hi; simp [Job.prog, check_written] at hi
    | fix year paths =>
      rw [hj] at hi
      obtain ⟨w1, w2⟩ := fix_written hi
      rw [h1 i year paths hj w1] at w2
      cases w2
    | batch process backend ext stems =>
      rw [hj] at hi h3
      obtain ⟨s, hs, e⟩ := Job.written_batch h3 hi
      exact h2 i process backend ext stems hj s hs e

/-! ### Files that are safe whatever runs -/

/-- An invocation that neither writes nor reports a file, as long as it finds this text in it. -/
def Prog.Spares (p c : Text) : Prog → Prop
  | .stop out => p ∉ out
  | .read q k => (q = p → (k c).Spares p c) ∧ (q ≠ p → ∀ t, (k t).Spares p c)
  | .empty q k => q ≠ p ∧ k.Spares p c
  | .put q _ k => q ≠ p ∧ k.Spares p c

def Proc.Spares (p c : Text) : Proc → Prop
  | .at g => g.Spares p c
  | .reading q got k => (q = p → got <+: c ∧ (k c).Spares p c) ∧ (q ≠ p → ∀ t, (k t).Spares p c)
  | .putting q _ _ k => q ≠ p ∧ k.Spares p c

theorem Step.spares {pr pr' : Proc} {fs fs' : FS} (h : Step pr fs pr' fs') {p : Text} (hs : pr.Spares p (fs p)) :
    fs' p = fs p ∧ pr'.Spares p (fs p) := by
  cases h with
  | «open» => exact ⟨rfl, fun e => ⟨List.nil_prefix, hs.1 e⟩, hs.2⟩
  | @more q got k fs piece h =>
    refine ⟨rfl, fun e => ⟨?_, (hs.1 e).2⟩, hs.2⟩
    subst e
    obtain ⟨r, hr⟩ := (hs.1 rfl).1
    obtain ⟨r', hr'⟩ := h
    refine ⟨r', ?_⟩
    rw [← hr] at hr' ⊢
    simp at hr'
    rw [← hr', List.append_assoc]
  | @eof q got k fs h =>
    refine ⟨rfl, ?_⟩
    by_cases e : q = p
    · subst e
      obtain ⟨r, hr⟩ := (hs.1 rfl).1
      have e : got = fs q := by
        rw [← hr] at h ⊢
        simp at h
        simp [h]
      rw [e]
      exact (hs.1 rfl).2
    · exact hs.2 e got
  | empty => exact ⟨write_ne _ _ (Ne.symm hs.1), hs.2⟩
  | start => exact ⟨rfl, hs⟩
  | write => exact ⟨write_ne _ _ (Ne.symm hs.1), hs⟩
  | close => exact ⟨rfl, hs.2⟩

theorem atOnce_spares {g : ι → Prog} {fs : FS} {p : Text} (hg : ∀ i, (g i).Spares p (fs p)) {ps : ι → Proc} {fs' : FS}
    (h : AtOnce (fun i => .at (g i)) fs ps fs') : fs' p = fs p ∧ ∀ i, (ps i).Spares p (fs p) := by
  generalize hp : (fun i => Proc.at (g i)) = ps₀ at h
  induction h with
  | refl => subst hp; exact ⟨rfl, hg⟩
  | @step ps' fs' fs'' i pr _ hs ih =>
    have h1 := ih.2 i
    rw [← ih.1] at h1
    obtain ⟨s1, s2⟩ := hs.spares h1
    refine ⟨s1.trans ih.1, fun k => ?_⟩
    by_cases hk : k = i
    · subst hk
      rw [Function.update_self, ← ih.1]
      exact s2
    · rw [Function.update_of_ne hk]
      exact ih.2 k

theorem fix_spares {year : Nat} {p c : Text} (h : pathChecked p = true → needsFixLines (header year) (fileLines c) = false)
    (paths : List Text) : (fixProg year paths).Spares p c := by
  induction paths with
  | nil => simp [fixProg, Prog.Spares]
  | cons q ps ih =>
    rw [fixProg]
    split
    · rename_i hq
      refine ⟨fun e => ?_, fun e t => ?_⟩
      · subst e
        beta_reduce
        rw [if_neg (by simp [h hq])]
        exact ih
      · beta_reduce
        split
        · exact ⟨fun e' => absurd e' e, fun _ t => ⟨e, e, e, ih⟩⟩
        · exact ih
    · exact ih

theorem check_spares {year : Nat} {p c : Text} (h : pathChecked p = true → needsFixLines (header year) (fileLines c) = false)
    (paths : List Text) {found : List Text} (hf : p ∉ found) : (checkProg year paths found).Spares p c := by
  induction paths generalizing found with
  | nil => exact hf
  | cons q ps ih =>
    rw [checkProg]
    split
    · rename_i hq
      refine ⟨fun e => ?_, fun e t => ?_⟩
      · subst e
        beta_reduce
        rw [if_neg (by simp [h hq])]
        exact ih hf
      · apply ih
        split
        · simp [hf, Ne.symm e]
        · exact hf
    · exact ih hf

theorem batch_spares {process : Text → Text → PyM Text} {suffix p c : Text} {files : List Text}
    (h : ∀ f ∈ files, outputName suffix f ≠ p) : (batchProg process suffix files).Spares p c := by
  induction files with
  | nil => simp [batchProg, Prog.Spares]
  | cons f files ih =>
    have ih := ih fun f hf => h f (by simp [hf])
    have key : ∀ t, (match process f t with
      | .ok r => Prog.empty (outputName suffix f) (.put (outputName suffix f) r (batchProg process suffix files))
      | .error _ => batchProg process suffix files).Spares p c := by
      intro t
      split
      · exact ⟨h f (by simp), h f (by simp), ih⟩
      · exact ih
    exact ⟨fun _ => key c, fun _ => key⟩

/-- **C95.** Whatever invocations run at the same time, in each other's way or not: a file that needs no header (in the year of the
invocations) and is no result file stays as it is at every moment, and no `check` reports it. So do circuit files. -/
theorem C95_safe {job : ι → Job} (hok : ∀ i, (job i).Ok) {fs : FS} {p : Text}
    (hfix : ∀ i year paths, job i = .fix year paths ∨ job i = .check year paths → needsFix year p fs = false)
    (hres : ∀ i process backend ext stems, job i = .batch process backend ext stems → ∀ s ∈ stems, p ≠ resultFile backend s)
    {ps : ι → Proc} {fs' : FS} (h : AtOnce (fun i => .at (job i).prog) fs ps fs') :
    fs' p = fs p ∧ ∀ i out, ps i = .at (.stop out) → p ∉ out := by
  have hsp : ∀ i, (job i).prog.Spares p (fs p) := by
    intro i
    have hn : ∀ year, needsFix year p fs = false → pathChecked p = true →
        needsFixLines (header year) (fileLines (fs p)) = false := by
      intro year h hp
      rwa [needsFix, hp, Bool.true_and] at h
    cases hj : job i with
    | fix year paths => exact fix_spares (hn year (hfix i year paths (.inl hj))) paths
    | check year paths => exact check_spares (hn year (hfix i year paths (.inr hj))) paths (by simp)
    | batch process backend ext stems =>
      have ho := hok i
      rw [hj] at ho
      refine batch_spares fun f hf e => ?_
      obtain ⟨s, hs, rfl⟩ := List.mem_map.1 hf
      rw [C41_result_name (noDot ho).1] at e
      exact hres i process backend ext stems hj s hs e.symm
  obtain ⟨h1, h2⟩ := atOnce_spares hsp h
  refine ⟨h1, fun i out he => ?_⟩
  have := h2 i
  rw [he] at this
  exact this

/-! ### In each other's way -/

theorem AtOnce.trans {ps ps' ps'' : ι → Proc} {fs fs' fs'' : FS} (h : AtOnce ps fs ps' fs') (h' : AtOnce ps' fs' ps'' fs'') :
    AtOnce ps fs ps'' fs'' := by
  induction h' with
  | refl => exact h
  | step _ hs ih => exact ih.step hs

/-- One of them goes on. -/
theorem AtOnce.of_alone {ps : ι → Proc} {fs fs' : FS} (i : ι) {pr : Proc} (h : Alone (ps i) fs pr fs') :
    AtOnce ps fs (Function.update ps i pr) fs' := by
  generalize hp : ps i = pr₀ at h
  induction h with
  | refl => rw [← hp, Function.update_eq_self]; exact .refl
  | step _ hs ih =>
    have := ih.step (i := i) (pr := _) (by rw [Function.update_self]; exact hs)
    rwa [Function.update_idem] at this

theorem Alone.trans {pr pr' pr'' : Proc} {fs fs' fs'' : FS} (h : Alone pr fs pr' fs') (h' : Alone pr' fs' pr'' fs'') :
    Alone pr fs pr'' fs'' := by
  induction h' with
  | refl => exact h
  | step _ hs ih => exact ih.step hs

theorem alone_read (p : Text) (k : Text → Prog) (fs : FS) : Alone (.at (.read p k)) fs (.at (k (fs p))) fs := by
  have h := ((Alone.refl.step .open).step (.more (p := p) (got := []) (k := k) (fs := fs) (piece := fs p) (by simp))).step
    (.eof (by simp))
  simpa using h

theorem alone_empty (p : Text) (k : Prog) (fs : FS) : Alone (.at (.empty p k)) fs (.at k) (fs.write p []) :=
  Alone.refl.step .empty

theorem alone_put (p t : Text) (k : Prog) (fs : FS) : Alone (.at (.put p t k)) fs (.at k) (fs.write p (patch (fs p) 0 t)) := by
  have h : Step (.putting p 0 t k) fs (.putting p (0 + t.length) [] k) (fs.write p (patch (fs p) 0 t)) := by
    have := Step.write (p := p) (n := 0) (k := k) (fs := fs) (a := t) (b := [])
    rwa [List.append_nil] at this
  exact ((Alone.refl.step .start).step h).step .close

theorem alone_run (g : Prog) (fs : FS) : Alone (.at g) fs (.at (.stop (g.run fs).2)) (g.run fs).1 := by
  induction g generalizing fs with
  | stop => exact .refl
  | read p k ih => exact (alone_read p k fs).trans (ih _ _)
  | empty p k ih => exact (alone_empty p k fs).trans (ih _)
  | put p t k ih => exact (alone_put p t k fs).trans (ih _)

/-- **C95.** Two `fix` runs at the same time can lose a file: whatever a file in need of a header holds, they can both end with nothing
but the header in it, and `check` then accepts it. -/
theorem C95_lost {year : Nat} {p : Text} {fs : FS} (hn : needsFix year p fs = true) :
    ∃ fs', AtOnce (fun _ : Bool => .at (Job.fix year [p]).prog) fs (fun _ => .at (.stop [])) fs' ∧
      fs' p = (header year).flatten ∧ p ∉ check year [p] fs' := by
  have hp : pathChecked p = true ∧ needsFixLines (header year) (fileLines (fs p)) = true := by
    simpa [needsFix] using hn
  have e0 : (Job.fix year [p]).prog = .read p fun t =>
      if needsFixLines (header year) (fileLines t) then
        .read p fun t => .empty p (.empty p (.put p (addHeader year t) (.stop [])))
      else .stop [] := by
    show fixProg year [p] = _
    rw [fixProg, if_pos hp.1]
    rfl
  set write : Text → Prog := fun t => .empty p (.empty p (.put p (addHeader year t) (.stop []))) with hw
  have e1 : ∀ fs : FS, needsFixLines (header year) (fileLines (fs p)) = true →
      Alone (.at (Job.fix year [p]).prog) fs (.at (.read p write)) fs := by
    intro fs h
    rw [e0]
    have := alone_read p (fun t => if needsFixLines (header year) (fileLines t) then .read p write else .stop []) fs
    simpa only [h, if_true] using this
  have a0 : addHeader year [] = (header year).flatten := by
    simp [addHeader, fileLines, universal, splitLines, insertAt]
  let A : Bool → Proc := fun _ => .at (Job.fix year [p]).prog
  have h1 : AtOnce A fs (Function.update A true (.at (.read p write))) fs := .of_alone true (e1 fs hp.2)
  have h2 := h1.trans (.of_alone false (by rw [Function.update_of_ne (by decide)]; exact e1 fs hp.2))
  have h3 := h2.trans (.of_alone true (pr := .at (.empty p (.put p (addHeader year (fs p)) (.stop [])))) (fs' := fs.write p [])
    (by
      rw [Function.update_of_ne (by decide), Function.update_self]
      exact (alone_read p write fs).trans (alone_empty _ _ _)))
  have h4 := h3.trans (.of_alone false (pr := .at (write [])) (fs' := fs.write p [])
    (by
      rw [Function.update_of_ne (by decide), Function.update_self]
      have := alone_read p write (fs.write p [])
      rwa [write_same] at this))
  have h5 := h4.trans (.of_alone true (pr := .at (.stop [])) (by
    rw [Function.update_of_ne (by decide), Function.update_self]
    exact alone_run _ _))
  have h6 := h5.trans (.of_alone false (pr := .at (.stop [])) (by
    rw [Function.update_of_ne (by decide), Function.update_self]
    exact alone_run (write []) _))
  have hend : ∀ X : FS, ((write []).run X).1 p = (header year).flatten := by
    intro X
    simp only [hw, Prog.run, write_write, write_same, patch_zero_nil, a0]
  have e : Function.update (Function.update (Function.update (Function.update
      (Function.update (Function.update A true (.at (.read p write))) false (.at (.read p write))) true
      (.at (.empty p (.put p (addHeader year (fs p)) (.stop []))))) false (.at (write []))) true (.at (.stop []))) false
      (.at (.stop [])) = fun _ : Bool => Proc.at (.stop []) := by
    funext b
    cases b <;> simp
  rw [e] at h6
  refine ⟨_, h6, hend _, ?_⟩
  simp only [check, List.mem_filter, not_and, Bool.not_eq_true]
  exact fun _ => C42_truncated_header_accepted year p _ (k := (header year).length) (by simp [header])
    ((hend _).trans (by rw [List.take_length]))

/-- Any state of any finite number of invocations can be completed. -/
theorem can_finish (ps : ι → Proc) (fs : FS) {order : List ι} (h : ∀ i, i ∈ order) :
    ∃ ps' fs', AtOnce ps fs ps' fs' ∧ ∀ i, ∃ out, ps' i = .at (.stop out) := by
  have one : ∀ (pr : Proc) (fs : FS), ∃ out fs', Alone pr fs (.at (.stop out)) fs' := by
    intro pr fs
    cases pr with
    | «at» g => exact ⟨_, _, alone_run g fs⟩
    | reading p got k =>
      exact ⟨_, _, ((Alone.refl.step (.more List.prefix_rfl)).step (.eof (by simp; omega))).trans (alone_run _ _)⟩
    | putting p n rest k =>
      have h : Step (.putting p n rest k) fs (.putting p (n + rest.length) [] k) (fs.write p (patch (fs p) n rest)) := by
        have := Step.write (p := p) (n := n) (k := k) (fs := fs) (a := rest) (b := [])
        rwa [List.append_nil] at this
      exact ⟨_, _, ((Alone.refl.step h).step .close).trans (alone_run _ _)⟩
  suffices ∀ l : List ι, ∀ ps fs, ∃ ps' fs', AtOnce ps fs ps' fs' ∧
      ∀ i, (i ∈ l ∨ ∃ out, ps i = .at (.stop out)) → ∃ out, ps' i = .at (.stop out) by
    obtain ⟨ps', fs', h1, h2⟩ := this order ps fs
    exact ⟨ps', fs', h1, fun i => h2 i (.inl (h i))⟩
  intro l
  induction l with
  | nil => exact fun ps fs => ⟨ps, fs, .refl, fun i h => h.resolve_left (by simp)⟩
  | cons j l ih =>
    intro ps fs
    obtain ⟨out, fs₁, h1⟩ := one (ps j) fs
    obtain ⟨ps', fs', h2, h3⟩ := ih (Function.update ps j (.at (.stop out))) fs₁
    refine ⟨ps', fs', (AtOnce.of_alone j h1).trans h2, fun i hi => h3 i ?_⟩
    by_cases hij : i = j
    · subst hij
      exact .inr ⟨out, by simp⟩
    · rw [Function.update_of_ne hij]
      rcases hi with hi | hi
      · exact .inl ((List.mem_cons.1 hi).resolve_left hij)
      · exact .inr hi

/-- The dense and the sparse backend have no result file in common. -/
theorem sparse_numpy_apart (fs : FS) (process process' : Text → Text → PyM Text) (ext ext' : Text) (stems stems' : List Text) :
    ¬ Clash fs (.batch process (lit "sparse") ext stems) (.batch process' (lit "numpy") ext' stems') ∧
    ¬ Clash fs (.batch process' (lit "numpy") ext' stems') (.batch process (lit "sparse") ext stems) := by
  have key : ∀ s s', resultFile (lit "sparse") s ≠ resultFile (lit "numpy") s' := by
    intro s s' h
    have h := congrArg (fun t : Text => t.reverse.take 5) h
    simp [resultFile, lit] at h
  exact ⟨fun ⟨s, _, s', _, h⟩ => key s s' h, fun ⟨s, _, s', _, h⟩ => key s' s h.symm⟩

/-- **C95.** In particular: a sparse and a dense run over the same circuit files and a `fix` and a `check` of files that need no header
among them, all at the same time, with the sparse one first, the dense one last, or in any other order. -/
example (process process' : Text → Text → PyM Text) (stems : List Text) :
    let fs : FS := fun p => if p = lit "/w/a.py" then (header 2026).flatten else lit "x = 1\n"
    let job : Fin 4 → Job := fun i => match i with
      | 0 => .batch process (lit "sparse") (lit "txt") stems
      | 1 => .batch process' (lit "numpy") (lit "txt") stems
      | 2 => .fix 2026 [lit "/w/a.py", lit "/w/b.py"]
      | 3 => .check 2026 [lit "/w/a.py", lit "/w/c.py"]
    (∀ i, (job i).Ok) ∧ (∀ i k, i ≠ k → ¬ Clash fs (job i) (job k)) ∧
    ∃ ps fs', AtOnce (fun i => .at (job i).prog) fs ps fs' ∧ (∀ i, ∃ out, ps i = .at (.stop out)) ∧
      ps 3 = .at (.stop [lit "/w/c.py"]) ∧
      fs' = fix 2026 [lit "/w/a.py", lit "/w/b.py"] (batch process (lit "sparse") (stems.map fun s => s ++ '.' :: lit "txt")
        (batch process' (lit "numpy") (stems.map fun s => s ++ '.' :: lit "txt") fs)) := by
  intro fs job
  have hok : ∀ i, (job i).Ok := by
    intro i
    fin_cases i <;> simp [job, Job.Ok]
  have hn : needsFix 2026 (lit "/w/a.py") fs = false := by decide +kernel
  have hab : lit "/w/b.py" ≠ lit "/w/a.py" := by decide
  have hac : lit "/w/c.py" ≠ lit "/w/a.py" := by decide
  have hbc : lit "/w/b.py" ≠ lit "/w/c.py" := by decide
  have hfc : ¬ ∃ p ∈ [lit "/w/a.py", lit "/w/b.py"], p ∈ [lit "/w/a.py", lit "/w/c.py"] ∧ needsFix 2026 p fs = true := by
    rintro ⟨p, hp, hp', h⟩
    simp only [List.mem_cons, List.not_mem_nil, or_false] at hp hp'
    rcases hp with rfl | rfl
    · rw [hn] at h; cases h
    · rcases hp' with h | h
      · exact hab h
      · exact hbc h
  have hsn := sparse_numpy_apart fs process process' (lit "txt") (lit "txt") stems stems
  have hc : ∀ i k, i ≠ k → ¬ Clash fs (job i) (job k) := by
    intro i k hik
    fin_cases i <;> fin_cases k <;> first
      | exact absurd rfl hik
      | exact hsn.1
      | exact hsn.2
      | exact hfc
      | exact id
  obtain ⟨ps, fs', h1, h2⟩ := can_finish (fun i => .at (job i).prog) fs (order := [1, 0, 2, 3]) (by decide)
  obtain ⟨h3, h4⟩ := C95_any_order hok hc h1
  refine ⟨hok, hc, ps, fs', h1, h2, ?_, h4 h2 [1, 0, 2, 3] (by decide) (by decide)⟩
  obtain ⟨out, ho⟩ := h2 3
  rw [ho, h3 3 out ho]
  have : check 2026 [lit "/w/a.py", lit "/w/c.py"] fs = [lit "/w/c.py"] := by decide +kernel
  exact congrArg (fun r => Proc.at (.stop r)) this

/-- A file that two runs can lose. -/
example : ∃ fs', AtOnce (fun _ : Bool => .at (Job.fix 2026 [lit "/w/a.py"]).prog) (fun _ => lit "import os\n")
      (fun _ => .at (.stop [])) fs' ∧
    fs' (lit "/w/a.py") = (header 2026).flatten ∧ lit "/w/a.py" ∉ check 2026 [lit "/w/a.py"] fs' :=
  C95_lost (by decide +kernel)

/-- Two runs in each other's way on one file, that both have emptied: the other file is safe. -/
example :
    let fs : FS := fun p => if p = lit "/w/a.py" then (header 2026).flatten else lit "x = 1\n"
    let job : Bool → Job := fun _ => .fix 2026 [lit "/w/a.py", lit "/w/b.py"]
    (∀ i, (job i).Ok) ∧ Clash fs (job true) (job false) ∧
    (∀ i year paths, job i = .fix year paths ∨ job i = .check year paths → needsFix year (lit "/w/a.py") fs = false) ∧
    ∃ ps fs', AtOnce (fun i => .at (job i).prog) fs ps fs' ∧ fs' (lit "/w/b.py") = [] ∧ fs' (lit "/w/a.py") = (header 2026).flatten := by
  intro fs job
  have hn : needsFix 2026 (lit "/w/a.py") fs = false := by decide +kernel
  have hb : needsFix 2026 (lit "/w/b.py") fs = true := by decide +kernel
  have hok : ∀ i, (job i).Ok := fun i => trivial
  have hsafe : ∀ i year paths, job i = .fix year paths ∨ job i = .check year paths →
      needsFix year (lit "/w/a.py") fs = false := by
    rintro i year paths (h | h)
    · injection h with h1 h2
      rw [← h1]
      exact hn
    · cases h
  refine ⟨hok, ⟨lit "/w/b.py", by simp, by simp, .inl hb⟩, hsafe, ?_⟩
  have hp : pathChecked (lit "/w/a.py") = true ∧ pathChecked (lit "/w/b.py") = true := by decide +kernel
  have ha : needsFixLines (header 2026) (fileLines (fs (lit "/w/a.py"))) = false := by decide +kernel
  have hb : needsFixLines (header 2026) (fileLines (fs (lit "/w/b.py"))) = true := by decide +kernel
  have e : Alone (.at (job true).prog) fs (.at (.empty (lit "/w/b.py") (.put (lit "/w/b.py")
      (addHeader 2026 (fs (lit "/w/b.py"))) (.stop [])))) (fs.write (lit "/w/b.py") []) := by
    show Alone (.at (fixProg 2026 [lit "/w/a.py", lit "/w/b.py"])) fs _ _
    rw [fixProg, if_pos hp.1]
    refine (alone_read _ _ _).trans ?_
    rw [if_neg (by rw [ha]; decide), fixProg, if_pos hp.2]
    refine (alone_read _ _ _).trans ?_
    rw [if_pos hb]
    exact (alone_read _ _ _).trans (alone_empty _ _ _)
  have h := AtOnce.of_alone (ps := fun i => .at (job i).prog) true e
  exact ⟨_, _, h, by rw [write_same], (C95_safe hok hsafe (fun i _ _ _ _ h => by cases h) h).1⟩

end QuDiet.Tools
