import Verif.Lemmas.Glob

/-! # C86: the batch runner from the command line -/

namespace QuDiet.Tools
open QuDiet.Qasm

/-- The file `ns/stem.mode` below the directory `top` is a circuit file of the batch, with contents `t`: neither its name
nor that of a directory on the way from `top` begins with a dot. -/
def CircuitFile (disk : Dir) (top : List Text) (mode : Text) (ns : List Text) (stem t : Text) : Prop :=
  disk.text (top ++ ns ++ [stem ++ '.' :: mode]) = some t ∧ Shown (ns ++ [stem ++ '.' :: mode])

/-- The argument has none of the characters `*`, `?` and `[`, which stand for other names (the model leaves that out). -/
def Plain (path : Text) : Prop := ∀ c ∈ path, c ≠ '*' ∧ c ≠ '?' ∧ c ≠ '['

/-- Where its result goes: `stem-backend.pkl`, in the same directory. -/
def resultPath (top : List Text) (backend : Text) (ns : List Text) (stem : Text) : List Text :=
  top ++ ns ++ [stem ++ lit "-" ++ backend ++ lit ".pkl"]

theorem resultPath_inj {top : List Text} {b : Text} {ns ns' : List Text} {s s' : Text}
    (h : resultPath top b ns s = resultPath top b ns' s') : ns = ns' ∧ s = s' := by
  unfold resultPath at h
  obtain ⟨h1, h2⟩ := List.append_inj' h rfl
  exact ⟨List.append_cancel_left h1, resultFile_injective b (List.singleton_inj.1 h2)⟩

/-- The file that is written for the circuit file opened under a name. -/
theorem output_opened (path : Text) {ns : List Text} {mode : Text} (hmode : '.' ∉ mode) (hslash : '/' ∉ mode) {stem b : Text}
    (hn : ∀ n ∈ ns, Name n) (hf : Name (stem ++ '.' :: mode)) (hr : Name (stem ++ lit "-" ++ b ++ lit ".pkl")) :
    outputName b (openedAs path (ns ++ [stem ++ '.' :: mode])) = openedAs path (ns ++ [stem ++ lit "-" ++ b ++ lit ".pkl"]) := by
  have key : ∃ a : Text, ∀ f, Name f → openedAs path (ns ++ [f]) = a ++ f := by
    refine ⟨if (openedAs path ns).isEmpty || (lit "/").isSuffixOf (openedAs path ns) then openedAs path ns
      else openedAs path ns ++ lit "/", fun f hf => ?_⟩
    rw [← opened_join path hn hf, joinPath, not_abs hf.2.1, if_neg (by simp)]
    split <;> rfl
  obtain ⟨a, ha⟩ := key
  rw [ha _ hf, ha _ hr, ← List.append_assoc, C41_result_name hmode]
  simp [resultFile]

/-- Directories and their names, while result files are written. -/
structure Same (disk g : Dir) (mode : Text) : Prop where
  ok : g.Ok
  dirs : ∀ q, g.isDir q = disk.isDir q
  sources : ∀ ms stem, g.text (ms ++ [stem ++ '.' :: mode]) = disk.text (ms ++ [stem ++ '.' :: mode])

theorem name_result {s b : Text} {mode : Text} (hb : '/' ∉ b) (h : Name (s ++ '.' :: mode)) :
    Name (s ++ lit "-" ++ b ++ lit ".pkl") := by
  have hs : '/' ∉ s := fun hm => h.2.1 (by simp [hm])
  have key : s ++ lit "-" ++ b ++ lit ".pkl" = (s ++ lit "-" ++ b) ++ '.' :: lit "pkl" := rfl
  have hlast : (s ++ lit "-" ++ b ++ lit ".pkl").getLast? = some 'l' := by
    rw [List.getLast?_append]; rfl
  refine ⟨?_, ?_, ?_, ?_⟩
  · intro e; rw [e] at hlast; cases hlast
  · simp [hs, hb, lit]
  · intro e; rw [e] at hlast; cases hlast
  · intro e; rw [e] at hlast; cases hlast

/-- One circuit file. -/
theorem routine_step {disk g : Dir} {mode : Text} (hmode : '.' ∉ mode) (hslash : '/' ∉ mode) (hpkl : mode ≠ lit "pkl")
    (hs : Same disk g mode) (hok : disk.Ok) {cwd : List Text} {path : Text} {top : List Text} (h : Leads disk cwd path top)
    (process : Text → Text → PyM Text) {b : Text} (hb : '/' ∉ b) {ns : List Text} {stem : Text}
    (hg : disk.get (top ++ ns ++ [stem ++ '.' :: mode]) ≠ none) :
    Same disk (g.routine process cwd b (openedAs path (ns ++ [stem ++ '.' :: mode]))) mode ∧
    ∀ q, (g.routine process cwd b (openedAs path (ns ++ [stem ++ '.' :: mode]))).text q =
      if q = resultPath top b ns stem ∧ disk.isDir q = false then
        match disk.text (top ++ ns ++ [stem ++ '.' :: mode]) with
        | some t => match process (openedAs path (ns ++ [stem ++ '.' :: mode])) t with
          | .ok r => some r
          | .error _ => g.text q
        | none => g.text q
      else g.text q := by
  obtain ⟨x, hx⟩ := Option.ne_none_iff_exists'.1 hg
  have hnames := (get_names hok hx).1
  have hdir : disk.isDir (top ++ ns) = true := by
    rw [get_append _ _ _ (by simp)] at hx
    cases hx' : disk.get (top ++ ns) with
    | none => rw [hx'] at hx; cases hx
    | some e =>
      cases e with
      | dir e => exact isDir_iff.2 ⟨e, hx'⟩
      | file t => rw [hx'] at hx; cases hx
  have hn : ∀ n ∈ ns, Name n := fun n hn => hnames n (by simp [hn])
  have hf : Name (stem ++ '.' :: mode) := hnames _ (by simp)
  have hr := name_result hb hf
  have hat : g.at cwd (openedAs path (ns ++ [stem ++ '.' :: mode])) = some (top ++ ns ++ [stem ++ '.' :: mode]) := by
    rw [Dir.at, follow_congr hs.dirs, ← Dir.at]
    exact at_opened h hdir hn hf
  have hat' : g.at cwd (outputName b (openedAs path (ns ++ [stem ++ '.' :: mode]))) = some (resultPath top b ns stem) := by
    rw [output_opened path hmode hslash hn hf hr, Dir.at, follow_congr hs.dirs, ← Dir.at]
    exact at_opened h hdir hn hr
  have hsrc := hs.sources (top ++ ns) stem
  cases ht : disk.text (top ++ ns ++ [stem ++ '.' :: mode]) with
  | none =>
    have e : g.routine process cwd b (openedAs path (ns ++ [stem ++ '.' :: mode])) = g := by
      unfold Dir.routine
      have : ∀ t, g.look cwd (openedAs path (ns ++ [stem ++ '.' :: mode])) ≠ some (.file t) := by
        intro t ht'
        rw [Dir.look, hat] at ht'
        have := text_iff.2 ht'
        rw [hsrc, ht] at this
        cases this
      split
      · rename_i t ht'; exact absurd ht' (this t)
      · rfl
    rw [e]
    exact ⟨hs, fun q => by split <;> rfl⟩
  | some t =>
    have hlook : g.look cwd (openedAs path (ns ++ [stem ++ '.' :: mode])) = some (.file t) := by
      rw [Dir.look, hat]
      exact text_iff.1 (hsrc.trans ht)
    unfold Dir.routine
    rw [hlook]
    simp only
    cases hp : process (openedAs path (ns ++ [stem ++ '.' :: mode])) t with
    | error e => exact ⟨hs, fun q => by simp⟩
    | ok r =>
      simp only [hat']
      have hgd : g.isDir (top ++ ns) = true := by rw [hs.dirs]; exact hdir
      refine ⟨⟨ok_save hs.ok hgd hr r, fun q => ?_, fun ms s => ?_⟩, fun q => ?_⟩
      · rw [resultPath, isDir_save hgd, hs.dirs]
      · rw [resultPath, text_save hgd, if_neg, hs.sources]
        rintro ⟨e, _⟩
        have := List.singleton_inj.1 (List.append_inj' e rfl).2
        exact resultFile_ne hmode hpkl b stem s this
      · rw [resultPath, text_save hgd, hs.dirs]
        by_cases hq : q = top ++ ns ++ [stem ++ lit "-" ++ b ++ lit ".pkl"]
        · rw [← hq]
        · rw [if_neg (fun h => hq h.1), if_neg (fun h => hq h.1)]

/-- The whole batch. -/
theorem batch_steps {disk : Dir} {mode : Text} (hmode : '.' ∉ mode) (hslash : '/' ∉ mode) (hpkl : mode ≠ lit "pkl")
    (hok : disk.Ok) {cwd : List Text} {path : Text} {top : List Text} (h : Leads disk cwd path top)
    (process : Text → Text → PyM Text) {b : Text} (hb : '/' ∉ b) (files : List Text) {g : Dir} (hs : Same disk g mode)
    (hfiles : ∀ p ∈ files, ∃ ns stem, disk.get (top ++ ns ++ [stem ++ '.' :: mode]) ≠ none ∧
      p = openedAs path (ns ++ [stem ++ '.' :: mode])) :
    Same disk (files.foldl (fun g file => g.routine process cwd b file) g) mode ∧
    ∀ q, (∃ ns stem t r, openedAs path (ns ++ [stem ++ '.' :: mode]) ∈ files ∧
        disk.text (top ++ ns ++ [stem ++ '.' :: mode]) = some t ∧ q = resultPath top b ns stem ∧ disk.isDir q = false ∧
        process (openedAs path (ns ++ [stem ++ '.' :: mode])) t = .ok r ∧
        (files.foldl (fun g file => g.routine process cwd b file) g).text q = some r) ∨
      (∀ ns stem t r, openedAs path (ns ++ [stem ++ '.' :: mode]) ∈ files →
        disk.text (top ++ ns ++ [stem ++ '.' :: mode]) = some t →
        process (openedAs path (ns ++ [stem ++ '.' :: mode])) t = .ok r → disk.isDir q = false → q ≠ resultPath top b ns stem) ∧
        (files.foldl (fun g file => g.routine process cwd b file) g).text q = g.text q := by
  induction files generalizing g with
  | nil => exact ⟨hs, fun q => .inr ⟨by simp, rfl⟩⟩
  | cons p files ih =>
    obtain ⟨ns, stem, hget, rfl⟩ := hfiles p (by simp)
    obtain ⟨hs', hstep⟩ := routine_step hmode hslash hpkl hs hok h process hb hget
    obtain ⟨h1, h2⟩ := ih hs' fun p hp => hfiles p (by simp [hp])
    refine ⟨h1, fun q => ?_⟩
    rw [List.foldl_cons]
    rcases h2 q with ⟨ns', stem', t, r, hm, h3⟩ | ⟨h3, h4⟩
    · exact .inl ⟨ns', stem', t, r, by simp [hm], h3⟩
    · rw [hstep q] at h4
      by_cases hq : q = resultPath top b ns stem ∧ disk.isDir q = false
      · rw [if_pos hq] at h4
        cases ht : disk.text (top ++ ns ++ [stem ++ '.' :: mode]) with
        | none =>
          rw [ht] at h4
          refine .inr ⟨?_, h4⟩
          intro ns' stem' t r hm ht' hr hd he
          obtain ⟨rfl, rfl⟩ := resultPath_inj (hq.1.symm.trans he)
          rw [ht] at ht'
          cases ht'
        | some t =>
          rw [ht] at h4
          simp only at h4
          cases hp : process (openedAs path (ns ++ [stem ++ '.' :: mode])) t with
          | ok r =>
            rw [hp] at h4
            exact .inl ⟨ns, stem, t, r, by simp, ht, hq.1, hq.2, hp, h4⟩
          | error e =>
            rw [hp] at h4
            refine .inr ⟨?_, h4⟩
            intro ns' stem' t' r hm ht' hr hd he
            obtain ⟨rfl, rfl⟩ := resultPath_inj (hq.1.symm.trans he)
            rw [ht] at ht'
            cases ht'
            rw [hp] at hr
            cases hr
      · rw [if_neg hq] at h4
        refine .inr ⟨?_, h4⟩
        intro ns' stem' t r hm ht hr hd he
        rcases List.mem_cons.1 hm with hm | hm
        · -- the same name: the same file
          refine hq ⟨?_, hd⟩
          have hg' : disk.get (top ++ ns' ++ [stem' ++ '.' :: mode]) ≠ none := by
            rw [text_iff.1 ht]; simp
          have loc : ∀ ns stem, disk.get (top ++ ns ++ [stem ++ '.' :: mode]) ≠ none →
              disk.at cwd (openedAs path (ns ++ [stem ++ '.' :: mode])) = some (top ++ ns ++ [stem ++ '.' :: mode]) := by
            intro ns stem hg
            obtain ⟨x, hx⟩ := Option.ne_none_iff_exists'.1 hg
            have hnames := (get_names hok hx).1
            refine at_opened h ?_ (fun n hn => hnames n (by simp [hn])) (hnames _ (by simp))
            rw [get_append _ _ _ (by simp)] at hx
            cases hx' : disk.get (top ++ ns) with
            | none => rw [hx'] at hx; cases hx
            | some e =>
              cases e with
              | dir e => exact isDir_iff.2 ⟨e, hx'⟩
              | file t => rw [hx'] at hx; cases hx
          have e := loc ns' stem' hg'
          rw [hm, loc ns stem hget, Option.some.injEq] at e
          obtain ⟨e1, e2⟩ := List.append_inj' e rfl
          have e3 := List.append_cancel_left e1
          have e4 := List.append_cancel_right (List.singleton_inj.1 e2)
          rw [he, e3, e4]
        · exact h3 ns' stem' t r hm ht hr hd he

/-- **C86.** `experimental.py -m txt -b backend path` (or `-m qasm`), for an argument that leads to a directory. There are
names that lead to the circuit files below it such that, with what becomes of a circuit file of that name, (1) the result of
every circuit file that does not fail is afterwards in `stem-backend.pkl` beside it, unless that is a directory, (2) no other
file is written, created or removed, in particular no circuit file, and (3) directories are as before. -/
theorem C86_batch {disk : Dir} (hok : disk.Ok) {cuda : Bool} {cwd : List Text} {path : Text} {top : List Text} (_ : Plain path)
    (h : Leads disk cwd path top) {mode : Text} (hmode : mode = lit "txt" ∨ mode = lit "qasm") {backend : Text}
    (hb : backend = lit "sparse" ∨ backend = lit "numpy" ∨ cuda = true ∧ (backend = lit "cuda" ∨ backend = lit "sparse-cuda"))
    (process : Text → Text → Text → PyM Text) (load : Text → PyM Text) :
    ∃ (name : List Text → Text → Text) (disk' : Dir), batchMain process load cuda cwd mode backend path disk = .ok disk' ∧
      (∀ ns stem t, CircuitFile disk top mode ns stem t →
        disk.at cwd (name ns stem) = some (top ++ ns ++ [stem ++ '.' :: mode])) ∧
      (∀ ns stem t r, CircuitFile disk top mode ns stem t → process backend (name ns stem) t = .ok r →
        disk.isDir (resultPath top backend ns stem) = false → disk'.text (resultPath top backend ns stem) = some r) ∧
      (∀ q, (∀ ns stem t r, CircuitFile disk top mode ns stem t → process backend (name ns stem) t = .ok r →
        q ≠ resultPath top backend ns stem) → disk'.text q = disk.text q) ∧
      (∀ ns stem, disk'.text (ns ++ [stem ++ '.' :: mode]) = disk.text (ns ++ [stem ++ '.' :: mode])) ∧
      (∀ q, disk'.isDir q = disk.isDir q) ∧ disk'.Ok := by
  have hm1 : '.' ∉ mode := by rcases hmode with rfl | rfl <;> decide
  have hm2 : '/' ∉ mode := by rcases hmode with rfl | rfl <;> decide
  have hm3 : mode ≠ lit "pkl" := by rcases hmode with rfl | rfl <;> decide
  have hb1 : '/' ∉ backend := by rcases hb with rfl | rfl | ⟨_, rfl | rfl⟩ <;> decide
  have hb2 : backend ∈ [lit "sparse", lit "numpy", lit "cuda", lit "sparse-cuda"] := by
    rcases hb with rfl | rfl | ⟨_, rfl | rfl⟩ <;> simp
  have hb3 : ¬ (backend ∈ [lit "cuda", lit "sparse-cuda"] ∧ cuda = false) := by
    rcases hb with rfl | rfl | ⟨hc, _⟩
    · decide +revert
    · decide +revert
    · simp [hc]
  have hm4 : mode ∈ [lit "txt", lit "qasm"] := by rcases hmode with rfl | rfl <;> simp
  have hrun : batchMain process load cuda cwd mode backend path disk =
      .ok ((disk.glob cwd path mode).foldl (fun g file => g.routine (process backend) cwd backend file) disk) := by
    unfold batchMain
    rw [if_neg (not_not.2 hb2), if_neg hb3]
    simp only
    rw [if_pos hm4]
  have hsuf : ∀ f : Text, lit "." ++ mode <:+ f ↔ ∃ stem, f = stem ++ '.' :: mode := by
    intro f
    constructor
    · rintro ⟨s, hs⟩; exact ⟨s, hs.symm⟩
    · rintro ⟨s, rfl⟩; exact ⟨s, rfl⟩
  have hfiles : ∀ p ∈ disk.glob cwd path mode, ∃ ns stem, disk.get (top ++ ns ++ [stem ++ '.' :: mode]) ≠ none ∧
      p = openedAs path (ns ++ [stem ++ '.' :: mode]) := by
    intro p hp
    obtain ⟨ns, f, hg, _, hf, rfl⟩ := (mem_glob hok h mode p).1 hp
    obtain ⟨stem, rfl⟩ := (hsuf f).1 hf
    exact ⟨ns, stem, hg, rfl⟩
  obtain ⟨hsame, hall⟩ := batch_steps hm1 hm2 hm3 hok h (process backend) hb1 (disk.glob cwd path mode)
    ⟨hok, fun _ => rfl, fun _ _ => rfl⟩ hfiles
  have found : ∀ ns stem t, CircuitFile disk top mode ns stem t →
      openedAs path (ns ++ [stem ++ '.' :: mode]) ∈ disk.glob cwd path mode := by
    intro ns stem t hc
    refine (mem_glob hok h mode _).2 ⟨ns, _, ?_, hc.2, (hsuf _).2 ⟨stem, rfl⟩, rfl⟩
    rw [text_iff.1 hc.1]; simp
  have loc : ∀ ns stem t, disk.text (top ++ ns ++ [stem ++ '.' :: mode]) = some t →
      disk.at cwd (openedAs path (ns ++ [stem ++ '.' :: mode])) = some (top ++ ns ++ [stem ++ '.' :: mode]) := by
    intro ns stem t ht
    have hx := text_iff.1 ht
    have hnames := (get_names hok hx).1
    refine at_opened h ?_ (fun n hn => hnames n (by simp [hn])) (hnames _ (by simp))
    rw [get_append _ _ _ (by simp)] at hx
    cases hx' : disk.get (top ++ ns) with
    | none => rw [hx'] at hx; cases hx
    | some e =>
      cases e with
      | dir e => exact isDir_iff.2 ⟨e, hx'⟩
      | file t => rw [hx'] at hx; cases hx
  have unfound : ∀ ns stem t, openedAs path (ns ++ [stem ++ '.' :: mode]) ∈ disk.glob cwd path mode →
      disk.text (top ++ ns ++ [stem ++ '.' :: mode]) = some t → CircuitFile disk top mode ns stem t := by
    intro ns stem t hm ht
    obtain ⟨ns', f, hg, hs, hf, he⟩ := (mem_glob hok h mode _).1 hm
    obtain ⟨stem', rfl⟩ := (hsuf f).1 hf
    obtain ⟨x, hx⟩ := Option.ne_none_iff_exists'.1 hg
    have hnames := (get_names hok hx).1
    have hl : disk.at cwd (openedAs path (ns' ++ [stem' ++ '.' :: mode])) = some (top ++ ns' ++ [stem' ++ '.' :: mode]) := by
      refine at_opened h ?_ (fun n hn => hnames n (by simp [hn])) (hnames _ (by simp))
      rw [get_append _ _ _ (by simp)] at hx
      cases hx' : disk.get (top ++ ns') with
      | none => rw [hx'] at hx; cases hx
      | some e =>
        cases e with
        | dir e => exact isDir_iff.2 ⟨e, hx'⟩
        | file t => rw [hx'] at hx; cases hx
    rw [← he, loc ns stem t ht, Option.some.injEq] at hl
    obtain ⟨e1, e2⟩ := List.append_inj' hl rfl
    have e3 := List.append_cancel_left e1
    refine ⟨ht, ?_⟩
    rw [e3, e2]
    exact hs
  refine ⟨fun ns stem => openedAs path (ns ++ [stem ++ '.' :: mode]), _, hrun, fun ns stem t hc => loc ns stem t hc.1,
    ?_, ?_, ?_, hsame.dirs, hsame.ok⟩
  · intro ns stem t r hc hr hd
    rcases hall (resultPath top backend ns stem) with ⟨ns', stem', t', r', _, ht', he, _, hr', hres⟩ | ⟨hno, _⟩
    · obtain ⟨rfl, rfl⟩ := resultPath_inj he
      have ht := hc.1
      rw [ht] at ht'
      cases ht'
      rw [hr] at hr'
      cases hr'
      exact hres
    · exact absurd rfl (hno ns stem t r (found ns stem t hc) hc.1 hr hd)
  · intro q hq
    rcases hall q with ⟨ns', stem', t', r', hm, ht', he, _, hr', hres⟩ | ⟨_, hsame⟩
    · exact absurd he (hq ns' stem' t' r' (unfound ns' stem' t' hm ht') hr')
    · exact hsame
  · intro ns stem
    exact hsame.sources ns stem

/-- **C86.** Nothing changes, and no exception is raised, if the argument does not lead to a directory, or with a mode other
than `txt`, `qasm`, `pkl` and `pickle`. -/
theorem C86_nothing {disk : Dir} {cuda : Bool} {cwd : List Text} {path mode backend : Text} (_ : Plain path)
    (h : (∀ top, ¬ Leads disk cwd path top) ∨ mode ∉ [lit "txt", lit "qasm", lit "pkl", lit "pickle"])
    (hb : backend = lit "sparse" ∨ backend = lit "numpy" ∨ cuda = true ∧ (backend = lit "cuda" ∨ backend = lit "sparse-cuda"))
    (process : Text → Text → Text → PyM Text) (load : Text → PyM Text) :
    batchMain process load cuda cwd mode backend path disk = .ok disk := by
  have hb2 : backend ∈ [lit "sparse", lit "numpy", lit "cuda", lit "sparse-cuda"] := by
    rcases hb with rfl | rfl | ⟨_, rfl | rfl⟩ <;> simp
  have hb3 : ¬ (backend ∈ [lit "cuda", lit "sparse-cuda"] ∧ cuda = false) := by
    rcases hb with rfl | rfl | ⟨hc, _⟩
    · decide +revert
    · decide +revert
    · simp [hc]
  unfold batchMain
  rw [if_neg (not_not.2 hb2), if_neg hb3]
  simp only
  rcases h with h | h
  · have hg : disk.glob cwd path mode = [] := by
      unfold Dir.glob
      split
      · rename_i d hd
        exfalso
        rw [Dir.look] at hd
        cases hat : disk.at cwd (globBase path) with
        | none => rw [hat] at hd; cases hd
        | some top =>
          rw [hat] at hd
          have hdir : disk.isDir top = true := isDir_iff.2 ⟨d, hd⟩
          refine h top ⟨?_, hdir⟩
          rcases globBase_cases path with ⟨k, hp, hbase⟩ | ⟨k, hp, hbase, _⟩
          · have htop : top = [] := by
              rw [Dir.at, hbase] at hat
              have := prefix_replicate k []
              rw [List.append_nil] at this
              rw [if_pos this] at hat
              have hsp := split_slashes (k + 1) []
              rw [List.append_nil] at hsp
              rw [hsp] at hat
              exact (follow_empties (by simp [splitCh]) hat).symm
            cases k with
            | zero => exact .inl ⟨hp, htop⟩
            | succ k =>
              refine .inr ⟨by rw [hp]; simp [List.replicate_succ], ?_⟩
              have := prefix_replicate k []
              rw [List.append_nil] at this
              have hsp := split_slashes (k + 1) []
              rw [List.append_nil] at hsp
              rw [Dir.at, hp, if_pos this, hsp, htop]
              exact follow_dir_empties (by simp [splitCh]) rfl
          · refine .inr ⟨?_, ?_⟩
            · intro e
              exact hbase (List.append_eq_nil_iff.1 (hp.symm.trans e)).1
            · have pre : ∀ y, (lit "/").isPrefixOf (globBase path ++ y) = (lit "/").isPrefixOf (globBase path) := by
                intro y
                cases hg : globBase path with
                | nil => exact absurd hg hbase
                | cons c b => simp [lit, List.isPrefixOf]
              rw [Dir.at, hp, pre]
              rw [Dir.at] at hat
              cases k with
              | zero => simpa using hat
              | succ k =>
                have hsp := split_slashes k []
                rw [List.append_nil] at hsp
                rw [List.replicate_succ, split_cat, follow_append, hat, hsp]
                exact follow_dir_empties (by simp [splitCh]; tauto) hdir
      · rfl
    rw [hg]
    split_ifs <;> rfl
  · simp only [List.mem_cons, not_or] at h
    rw [if_neg (by simp [h]), if_neg (by simp [h])]

/-- **C86.** A backend of another name raises, and so does a CUDA backend without CUDA, whatever the path. -/
theorem C86_backend {disk : Dir} {cuda : Bool} {cwd : List Text} {path mode backend : Text} (process : Text → Text → Text → PyM Text) (load : Text → PyM Text) :
    (backend ∉ [lit "sparse", lit "numpy", lit "cuda", lit "sparse-cuda"] →
      batchMain process load cuda cwd mode backend path disk = .error .exception) ∧
    (backend = lit "cuda" ∨ backend = lit "sparse-cuda" →
      batchMain process load false cwd mode backend path disk = .error .assertion) := by
  constructor
  · intro h
    rw [batchMain, if_pos h]
  · intro h
    rw [batchMain, if_neg (by rcases h with rfl | rfl <;> simp), if_pos ⟨by rcases h with rfl | rfl <;> simp, rfl⟩]

/-! ### The hypotheses hold in concrete cases -/

/-- A directory `t` with two circuit files, one of them in a directory below, a hidden one, and another file. -/
def sampleDisk : Dir :=
  .dir (lit "t") (.file (lit "a.txt") (lit "1") (.dir (lit "s") (.file (lit "b.txt") (lit "2") .nil)
    (.dir (lit ".git") (.file (lit "c.txt") (lit "3") .nil) (.file (lit "note") (lit "4") .nil)))) .nil

theorem sampleDisk_ok : sampleDisk.Ok := by
  simp only [sampleDisk, Dir.Ok, Dir.find, Name]
  simp [lit]

/-- Started in `t` with the argument `./s/..//`. -/
example : Leads sampleDisk [lit "t"] (lit "./s/..//") [lit "t"] :=
  ⟨.inr ⟨by decide, by decide +kernel⟩, rfl⟩

/-- A directory that does not exist. -/
example : batchMain (fun _ _ _ => .ok []) .ok false [lit "t"] (lit "txt") (lit "numpy") (lit "u/") sampleDisk = .ok sampleDisk :=
  C86_nothing (by unfold Plain; decide) (.inl fun top h => by
    obtain ⟨⟨h, _⟩ | ⟨_, h⟩, hd⟩ := h
    · cases h
    · have e : sampleDisk.at [lit "t"] (lit "u/") = none := by decide +kernel
      rw [e] at h
      cases h) (.inr (.inl rfl)) _ _

/-- The circuit files are `a.txt` and `s/b.txt`, and not the hidden one. -/
example : CircuitFile sampleDisk [lit "t"] (lit "txt") [] (lit "a") (lit "1") ∧
    CircuitFile sampleDisk [lit "t"] (lit "txt") [lit "s"] (lit "b") (lit "2") ∧
    ¬ CircuitFile sampleDisk [lit "t"] (lit "txt") [lit ".git"] (lit "c") (lit "3") := by
  refine ⟨⟨rfl, ?_⟩, ⟨rfl, ?_⟩, fun h => h.2 (lit ".git") (by simp) (by decide)⟩
  · unfold Shown; decide
  · unfold Shown; decide

/-- A run in which every circuit but `2` fails. -/
example : ∃ (name : List Text → Text → Text) (disk' : Dir), batchMain (fun _ _ t => if t = lit "2" then .ok (lit "result") else .error .index) .ok false [lit "t"]
      (lit "txt") (lit "sparse") (lit "./s/..//") sampleDisk = .ok disk' ∧
    disk'.text [lit "t", lit "s", lit "b-sparse.pkl"] = some (lit "result") ∧
    disk'.text [lit "t", lit "a-sparse.pkl"] = none ∧ disk'.text [lit "t", lit "a.txt"] = some (lit "1") ∧
    sampleDisk.at [lit "t"] (name [lit "s"] (lit "b")) = some [lit "t", lit "s", lit "b.txt"] := by
  obtain ⟨name, disk', h1, h2, h3, h4, h5, _⟩ := C86_batch sampleDisk_ok (cuda := false) (cwd := [lit "t"])
    (path := lit "./s/..//") (top := [lit "t"]) (by unfold Plain; decide) ⟨.inr ⟨by decide, by decide +kernel⟩, rfl⟩ (.inl rfl) (.inl rfl)
    (fun _ _ t => if t = lit "2" then .ok (lit "result") else .error .index) .ok
  have hc : CircuitFile sampleDisk [lit "t"] (lit "txt") [lit "s"] (lit "b") (lit "2") := ⟨rfl, by unfold Shown; decide⟩
  refine ⟨name, disk', h1, h3 [lit "s"] (lit "b") (lit "2") _ hc rfl rfl, ?_, h5 [lit "t"] (lit "a"), h2 _ _ _ hc⟩
  refine (h4 _ ?_).trans rfl
  intro ns stem t r hc hr he
  have ht : t = lit "2" := by
    by_contra hne
    rw [if_neg hne] at hr
    cases hr
  subst ht
  have hns : ns = [] := by
    have := congrArg List.length he
    simp [resultPath] at this
    exact List.length_eq_zero_iff.1 (by simpa using this)
  subst hns
  have hstem : stem = lit "a" :=
    (resultPath_inj (ns := []) (ns' := []) (top := [lit "t"]) (b := lit "sparse") (show resultPath [lit "t"] (lit "sparse") [] (lit "a") = _ from he)).2.symm
  subst hstem
  have := hc.1
  cases this

end QuDiet.Tools
