import Verif.BatchFail
import Verif.Props.Access
import Verif.Props.Saved

/-! # C99: the batch runner when results cannot be saved -/

namespace QuDiet.Tools
open QuDiet.Qasm

/-! ### Specification -/

/-- All directories from `top` down to `top/ns` can be listed. -/
def Listable (acc : Access) (top ns : List Text) : Prop := ∀ xs, xs <+: ns → acc.closed (top ++ xs) = false

/-- What is in a file afterwards if `result` was to be saved in it. -/
def savedAs (fault : Option SaveFault) (before : Option Text) (result : Text) : Option Text :=
  match fault with
  | none => some result
  | some .refused => before
  | some (.stopped n) => some (result.take n)

/-! ### What `glob` finds -/

theorem isDir_seen (acc : Access) (here : List Text) (d : Dir) (ns : List Text) :
    (d.seen acc here).isDir ns = true ↔
      d.isDir ns = true ∧ ∀ xs, xs ≠ [] → xs <+: ns → xs ≠ ns → acc.closed (here ++ xs) = false := by
  induction ns generalizing d here with
  | nil =>
    refine ⟨fun _ => ⟨rfl, fun xs h1 h2 => absurd (List.prefix_nil.1 h2) h1⟩, fun _ => rfl⟩
  | cons n ns ih =>
    rw [isDir_cons, isDir_cons, find_seen]
    cases d.find n with
    | none => simp
    | some e =>
      cases e with
      | file t => simp [Entry.seen]
      | dir s =>
        simp only [Option.map_some, Entry.seen]
        by_cases hc : acc.closed (here ++ [n]) = true
        · rw [if_pos hc]
          cases ns with
          | nil =>
            refine ⟨fun _ => ⟨rfl, fun xs h1 h2 h3 => ?_⟩, fun _ => rfl⟩
            rcases xs with _ | ⟨x, _ | ⟨y, xs⟩⟩
            · exact absurd rfl h1
            · exact absurd (by simpa using h2) h3
            · simpa using h2.length_le
          | cons m ns =>
            constructor
            · intro h
              rw [isDir_cons] at h
              simp [Dir.find] at h
            · rintro ⟨-, h⟩
              have := h [n] (by simp) (by simp) (by simp)
              rw [hc] at this
              cases this
        · rw [if_neg hc, ih]
          refine and_congr_right fun _ => ⟨fun h xs h1 h2 h3 => ?_, fun h xs h1 h2 h3 => ?_⟩
          · cases xs with
            | nil => exact absurd rfl h1
            | cons x xs =>
              obtain ⟨rfl, h4⟩ := List.cons_prefix_cons.1 h2
              cases xs with
              | nil => simpa using hc
              | cons y ys => simpa using h (y :: ys) (by simp) h4 (by simpa using h3)
          · simpa using h (n :: xs) (by simp) (by simpa using h2) (by simpa using h3)

theorem mem_globIf {acc : Access} {disk : Dir} (hok : disk.Ok) {cwd : List Text} {path : Text} {top : List Text}
    (h : Leads disk cwd path top) (mode p : Text) :
    p ∈ disk.globIf acc cwd path mode ↔ ∃ ns f, disk.get (top ++ ns ++ [f]) ≠ none ∧ Shown (ns ++ [f]) ∧ lit "." ++ mode <:+ f ∧
      Listable acc top ns ∧ p = openedAs path (ns ++ [f]) := by
  obtain ⟨d, hd⟩ := isDir_iff.1 h.2
  have hdok : d.Ok := (get_names hok hd).2 d rfl
  have hnames : ∀ ns, d.isDir ns = true → ∀ n ∈ ns, Name n := by
    intro ns h
    obtain ⟨e, he⟩ := isDir_iff.1 h
    exact (get_names hdok he).1
  unfold Dir.globIf
  rw [(at_join h (x := []) rfl).2]
  simp only [hd, List.mem_flatMap, List.mem_map]
  have dirs : ∀ dn, (∃ x ∈ [] :: (if acc.closed top = true then Dir.nil else d.seen acc top).rlist, joinPath (globBase path) x = dn) ↔
      ∃ ns, d.isDir ns = true ∧ Shown ns ∧ (∀ xs, xs <+: ns → xs ≠ ns → acc.closed (top ++ xs) = false) ∧ dn = openedAs path ns := by
    intro dn
    have hrl : ∀ x, x ∈ (if acc.closed top = true then Dir.nil else d.seen acc top).rlist ↔
        ∃ ns, ns ≠ [] ∧ d.isDir ns = true ∧ Shown ns ∧ (∀ xs, xs <+: ns → xs ≠ ns → acc.closed (top ++ xs) = false) ∧
          x = ['/'].intercalate ns := by
      intro x
      by_cases hc : acc.closed top = true
      · rw [if_pos hc]
        refine ⟨fun h => by simp [Dir.rlist] at h, ?_⟩
        rintro ⟨ns, hne, -, -, h, -⟩
        have := h [] List.nil_prefix (Ne.symm hne)
        rw [List.append_nil, hc] at this
        cases this
      · rw [if_neg hc, mem_rlist (seen_ok acc top d hdok)]
        refine exists_congr fun ns => and_congr_right fun hne => ?_
        rw [isDir_seen]
        constructor
        · rintro ⟨⟨h1, h2⟩, h3, h4⟩
          refine ⟨h1, h3, fun xs h5 h6 => ?_, h4⟩
          cases xs with
          | nil => simpa using hc
          | cons x xs => exact h2 _ (by simp) h5 h6
        · rintro ⟨h1, h2, h3, h4⟩
          exact ⟨⟨h1, fun xs _ => h3 xs⟩, h2, h4⟩
    constructor
    · rintro ⟨x, hx, rfl⟩
      rcases List.mem_cons.1 hx with rfl | hx
      · exact ⟨[], rfl, by simp [Shown], fun xs h1 h2 => absurd (List.prefix_nil.1 h1) h2, rfl⟩
      · obtain ⟨ns, _, h1, h2, h3, rfl⟩ := (hrl x).1 hx
        exact ⟨ns, h1, h2, h3, rfl⟩
    · rintro ⟨ns, h1, h2, h3, rfl⟩
      refine ⟨['/'].intercalate ns, ?_, rfl⟩
      by_cases hne : ns = []
      · subst hne; exact List.mem_cons_self ..
      · exact List.mem_cons_of_mem _ ((hrl _).2 ⟨ns, hne, h1, h2, h3, rfl⟩)
  have look : ∀ ns, d.isDir ns = true → ∃ e, disk.get (top ++ ns) = some (.dir e) ∧
      disk.at cwd (openedAs path ns) = some (top ++ ns) := by
    intro ns hns
    have h' : disk.isDir (top ++ ns) = true := by rw [get_below hd]; exact hns
    obtain ⟨e, he⟩ := isDir_iff.1 h'
    exact ⟨e, he, at_opened_dir h h' (hnames ns hns)⟩
  have found : ∀ (ns : List Text) (e : Dir) (f : Text), disk.get (top ++ ns) = some (.dir e) →
      (disk.get (top ++ ns ++ [f]) ≠ none ↔ e.find f ≠ none) := by
    intro ns e f he
    rw [get_append _ _ _ (by simp), he]
    show e.get [f] ≠ none ↔ _
    rw [get_cons]
    cases e.find f with
    | none => rfl
    | some x => cases x <;> simp [Dir.get]
  have listable : ∀ ns, (∀ xs, xs <+: ns → xs ≠ ns → acc.closed (top ++ xs) = false) → ¬ acc.closed (top ++ ns) = true →
      Listable acc top ns := by
    intro ns h1 h2 xs hx
    by_cases he : xs = ns
    · rw [he]; simpa using h2
    · exact h1 xs hx he
  have named : ∀ ns e f, disk.get (top ++ ns) = some (.dir e) → e.find f ≠ none → Name f := by
    intro ns e f he hf
    obtain ⟨x, hx⟩ := Option.ne_none_iff_exists'.1 ((found ns e f he).2 hf)
    exact (get_names hok hx).1 f (by simp)
  constructor
  · rintro ⟨dn, hdn, hp⟩
    obtain ⟨ns, h1, h2, h3, rfl⟩ := (dirs dn).1 hdn
    obtain ⟨e, he, hl⟩ := look ns h1
    rw [hl] at hp
    simp only [he] at hp
    by_cases hcl : acc.closed (top ++ ns) = true
    · rw [if_pos hcl] at hp
      cases hp
    rw [if_neg hcl] at hp
    obtain ⟨f, hf, rfl⟩ := List.mem_map.1 hp
    rw [List.mem_filter, mem_names] at hf
    have hf2 : globHidden f = false ∧ (lit "." ++ mode).isSuffixOf f = true := by simpa using hf.2
    refine ⟨ns, f, (found ns e f he).2 hf.1, ?_, List.isSuffixOf_iff_suffix.1 hf2.2, listable ns h3 hcl, ?_⟩
    · intro n hn
      rcases List.mem_append.1 hn with hn | hn
      · exact h2 n hn
      · rw [List.mem_singleton.1 hn]; exact (globHidden_iff f).1 hf2.1
    · exact opened_join path (hnames ns h1) (named ns e f he hf.1)
  · rintro ⟨ns, f, hg, hs, hf, hl, rfl⟩
    obtain ⟨x, hx⟩ := Option.ne_none_iff_exists'.1 hg
    have hdir : d.isDir ns = true := by
      rw [← get_below hd]
      rw [get_append _ _ _ (by simp)] at hx
      cases hx' : disk.get (top ++ ns) with
      | none => rw [hx'] at hx; cases hx
      | some e =>
        cases e with
        | dir e => exact isDir_iff.2 ⟨e, hx'⟩
        | file t => rw [hx'] at hx; cases hx
    obtain ⟨e, he, hat⟩ := look ns hdir
    refine ⟨openedAs path ns, (dirs _).2 ⟨ns, hdir, fun n hn => hs n (by simp [hn]), fun xs h1 _ => hl xs h1, rfl⟩, ?_⟩
    rw [hat]
    simp only [he]
    rw [if_neg (by rw [hl ns (List.prefix_refl _)]; simp)]
    have hfe := (found ns e f he).1 hg
    refine List.mem_map.2 ⟨f, List.mem_filter.2 ⟨(mem_names e f).2 hfe, ?_⟩, opened_join path (hnames ns hdir) (named ns e f he hfe)⟩
    rw [(globHidden_iff f).2 (hs f (by simp)), List.isSuffixOf_iff_suffix.2 hf]
    rfl

/-! ### The whole batch -/

/-- As `C86_batch`, for any part of the files. -/
theorem batch_part {disk : Dir} (hok : disk.Ok) {cwd : List Text} {path : Text} {top : List Text} (h : Leads disk cwd path top)
    {mode : Text} (hm1 : '.' ∉ mode) (hm2 : '/' ∉ mode) (hm3 : mode ≠ lit "pkl") {backend : Text} (hb1 : '/' ∉ backend)
    (process : Text → Text → PyM Text) (Q : List Text → Prop) (files : List Text)
    (mem : ∀ p, p ∈ files ↔ ∃ ns f, disk.get (top ++ ns ++ [f]) ≠ none ∧ Shown (ns ++ [f]) ∧ lit "." ++ mode <:+ f ∧
      Q ns ∧ p = openedAs path (ns ++ [f])) :
    ∃ disk', files.foldl (fun g file => g.routine process cwd backend file) disk = disk' ∧
      (∀ ns stem t, CircuitFile disk top mode ns stem t →
        disk.at cwd (openedAs path (ns ++ [stem ++ '.' :: mode])) = some (top ++ ns ++ [stem ++ '.' :: mode])) ∧
      (∀ ns stem t r, CircuitFile disk top mode ns stem t → Q ns → process (openedAs path (ns ++ [stem ++ '.' :: mode])) t = .ok r →
        disk.isDir (resultPath top backend ns stem) = false → disk'.text (resultPath top backend ns stem) = some r) ∧
      (∀ q, (∀ ns stem t r, CircuitFile disk top mode ns stem t → Q ns → process (openedAs path (ns ++ [stem ++ '.' :: mode])) t = .ok r →
        q ≠ resultPath top backend ns stem) → disk'.text q = disk.text q) ∧
      Same disk disk' mode := by
  have hsuf : ∀ f : Text, lit "." ++ mode <:+ f ↔ ∃ stem, f = stem ++ '.' :: mode := by
    intro f
    constructor
    · rintro ⟨s, hs⟩; exact ⟨s, hs.symm⟩
    · rintro ⟨s, rfl⟩; exact ⟨s, rfl⟩
  have hfiles : ∀ p ∈ files, ∃ ns stem, disk.get (top ++ ns ++ [stem ++ '.' :: mode]) ≠ none ∧
      p = openedAs path (ns ++ [stem ++ '.' :: mode]) := by
    intro p hp
    obtain ⟨ns, f, hg, _, hf, _, rfl⟩ := (mem p).1 hp
    obtain ⟨stem, rfl⟩ := (hsuf f).1 hf
    exact ⟨ns, stem, hg, rfl⟩
  obtain ⟨hsame, hall⟩ := batch_steps hm1 hm2 hm3 hok h process hb1 files ⟨hok, fun _ => rfl, fun _ _ => rfl⟩ hfiles
  have found : ∀ ns stem t, CircuitFile disk top mode ns stem t → Q ns → openedAs path (ns ++ [stem ++ '.' :: mode]) ∈ files := by
    intro ns stem t hc hq
    refine (mem _).2 ⟨ns, _, ?_, hc.2, (hsuf _).2 ⟨stem, rfl⟩, hq, rfl⟩
    rw [text_iff.1 hc.1]; simp
  have loc : ∀ ns stem, disk.get (top ++ ns ++ [stem ++ '.' :: mode]) ≠ none →
      disk.at cwd (openedAs path (ns ++ [stem ++ '.' :: mode])) = some (top ++ ns ++ [stem ++ '.' :: mode]) := by
    intro ns stem hg
    obtain ⟨x, hx⟩ := Option.ne_none_iff_exists'.1 hg
    have hnames := (get_names hok hx).1
    refine at_opened h ?_ (fun n hn => hnames n (by simp [hn])) (hnames _ (by simp))
    rw [get_append _ _ _ (by simp)] at hx
    cases hx' : disk.get (top ++ ns) with
    | none => rw [hx'] at hx; cases hx
    | some e =>
      cases e with
      | dir e => exact isDir_iff.2 ⟨e, hx'⟩
      | file t => rw [hx'] at hx; cases hx
  have ofText : ∀ {q t}, disk.text q = some t → disk.get q ≠ none := by
    intro q t ht
    rw [text_iff.1 ht]; simp
  have unfound : ∀ ns stem t, openedAs path (ns ++ [stem ++ '.' :: mode]) ∈ files →
      disk.text (top ++ ns ++ [stem ++ '.' :: mode]) = some t → CircuitFile disk top mode ns stem t ∧ Q ns := by
    intro ns stem t hm ht
    obtain ⟨ns', f, hg, hs, hf, hq, he⟩ := (mem _).1 hm
    obtain ⟨stem', rfl⟩ := (hsuf f).1 hf
    have hl := loc ns' stem' hg
    rw [← he, loc ns stem (ofText ht), Option.some.injEq] at hl
    obtain ⟨e1, e2⟩ := List.append_inj' hl rfl
    have e3 := List.append_cancel_left e1
    refine ⟨⟨ht, ?_⟩, e3 ▸ hq⟩
    rw [e3, e2]
    exact hs
  refine ⟨_, rfl, fun ns stem t hc => loc ns stem (ofText hc.1), ?_, ?_, hsame⟩
  · intro ns stem t r hc hq hr hd
    rcases hall (resultPath top backend ns stem) with ⟨ns', stem', t', r', _, ht', he, _, hr', hres⟩ | ⟨hno, _⟩
    · obtain ⟨rfl, rfl⟩ := resultPath_inj he
      have ht := hc.1
      rw [ht] at ht'
      cases ht'
      rw [hr] at hr'
      cases hr'
      exact hres
    · exact absurd rfl (hno ns stem t r (found ns stem t hc hq) hc.1 hr hd)
  · intro q hq
    rcases hall q with ⟨ns', stem', t', r', hm, ht', he, _, hr', hres⟩ | ⟨_, hsame⟩
    · obtain ⟨h1, h2⟩ := unfound ns' stem' t' hm ht'
      exact absurd he (hq ns' stem' t' r' h1 h2 hr')
    · exact hsame

/-- Failing to save, as if it were part of computing the result. -/
def faulty (disk : Dir) (fault : List Text → Option SaveFault) (process : Text → Text → PyM Text) (cwd : List Text) (b : Text)
    (file t : Text) : PyM Text :=
  match process file t with
  | .ok r => match disk.at cwd (outputName b file) with
    | some ns => match fault ns with
      | none => .ok r
      | some .refused => .error .os
      | some (.stopped n) => .ok (r.take n)
    | none => .ok r
  | .error e => .error e

theorem routineIf_eq {disk g : Dir} (hs : ∀ q, g.isDir q = disk.isDir q) (fault : List Text → Option SaveFault)
    (process : Text → Text → PyM Text) (cwd : List Text) (b file : Text) :
    g.routineIf fault process cwd b file = g.routine (faulty disk fault process cwd b) cwd b file := by
  have hat : g.at cwd (outputName b file) = disk.at cwd (outputName b file) := by
    rw [Dir.at, follow_congr hs, ← Dir.at]
  unfold Dir.routineIf Dir.routine faulty
  rw [hat]
  cases g.look cwd file with
  | none => rfl
  | some e =>
    cases e with
    | dir s => rfl
    | file t =>
      simp only
      cases process file t with
      | error e => rfl
      | ok r =>
        simp only
        cases disk.at cwd (outputName b file) with
        | none => rfl
        | some ns =>
          simp only
          cases fault ns with
          | none => rfl
          | some x => cases x <;> rfl

theorem fold_routineIf {disk : Dir} (hok : disk.Ok) {cwd : List Text} {path : Text} {top : List Text} (h : Leads disk cwd path top)
    {mode : Text} (hm1 : '.' ∉ mode) (hm2 : '/' ∉ mode) (hm3 : mode ≠ lit "pkl") {b : Text} (hb : '/' ∉ b)
    (fault : List Text → Option SaveFault) (process : Text → Text → PyM Text) (files : List Text) {g : Dir} (hs : Same disk g mode)
    (hfiles : ∀ p ∈ files, ∃ ns stem, disk.get (top ++ ns ++ [stem ++ '.' :: mode]) ≠ none ∧
      p = openedAs path (ns ++ [stem ++ '.' :: mode])) :
    files.foldl (fun g file => g.routineIf fault process cwd b file) g =
      files.foldl (fun g file => g.routine (faulty disk fault process cwd b) cwd b file) g := by
  induction files generalizing g with
  | nil => rfl
  | cons p files ih =>
    obtain ⟨ns, stem, hget, rfl⟩ := hfiles p (by simp)
    have hs' := (routine_step hm1 hm2 hm3 hs hok h (faulty disk fault process cwd b) hb hget).1
    rw [List.foldl_cons, List.foldl_cons, routineIf_eq hs.dirs]
    exact ih hs' fun p hp => hfiles p (by simp [hp])

theorem at_result {disk : Dir} (hok : disk.Ok) {cwd : List Text} {path : Text} {top : List Text} (h : Leads disk cwd path top)
    {mode : Text} (hm1 : '.' ∉ mode) (hm2 : '/' ∉ mode) {b : Text} (hb : '/' ∉ b) {ns : List Text} {stem t : Text}
    (hc : CircuitFile disk top mode ns stem t) :
    disk.at cwd (outputName b (openedAs path (ns ++ [stem ++ '.' :: mode]))) = some (resultPath top b ns stem) := by
  have hx := text_iff.1 hc.1
  have hnames := (get_names hok hx).1
  have hn : ∀ n ∈ ns, Name n := fun n hn => hnames n (by simp [hn])
  have hf : Name (stem ++ '.' :: mode) := hnames _ (by simp)
  have hr := name_result hb hf
  rw [output_opened path hm1 hm2 hn hf hr]
  refine at_opened h ?_ hn hr
  rw [get_append _ _ _ (by simp)] at hx
  cases hx' : disk.get (top ++ ns) with
  | none => rw [hx'] at hx; cases hx
  | some e =>
    cases e with
    | dir e => exact isDir_iff.2 ⟨e, hx'⟩
    | file t => rw [hx'] at hx; cases hx

section
variable {disk : Dir} {cuda : Bool} {cwd : List Text} {path : Text} {top : List Text} {mode backend : Text}

theorem batchIf_opened (hok : disk.Ok) (h : Leads disk cwd path top) (hmode : mode = lit "txt" ∨ mode = lit "qasm")
    (hb : backend = lit "sparse" ∨ backend = lit "numpy" ∨ cuda = true ∧ (backend = lit "cuda" ∨ backend = lit "sparse-cuda"))
    (acc : Access) (fault : List Text → Option SaveFault) (process : Text → Text → Text → PyM Text) :
    ∃ disk', batchMainIf acc fault process cuda cwd mode backend path disk = .ok disk' ∧
      (∀ ns stem t, CircuitFile disk top mode ns stem t →
        disk.at cwd (openedAs path (ns ++ [stem ++ '.' :: mode])) = some (top ++ ns ++ [stem ++ '.' :: mode])) ∧
      (∀ ns stem t r, CircuitFile disk top mode ns stem t → Listable acc top ns →
        process backend (openedAs path (ns ++ [stem ++ '.' :: mode])) t = .ok r →
        disk.isDir (resultPath top backend ns stem) = false → disk'.text (resultPath top backend ns stem) =
          savedAs (fault (resultPath top backend ns stem)) (disk.text (resultPath top backend ns stem)) r) ∧
      (∀ q, (∀ ns stem t r, CircuitFile disk top mode ns stem t → Listable acc top ns →
        process backend (openedAs path (ns ++ [stem ++ '.' :: mode])) t = .ok r →
        q ≠ resultPath top backend ns stem) → disk'.text q = disk.text q) ∧
      Same disk disk' mode := by
  have hm1 : '.' ∉ mode := by rcases hmode with rfl | rfl <;> decide
  have hm2 : '/' ∉ mode := by rcases hmode with rfl | rfl <;> decide
  have hm3 : mode ≠ lit "pkl" := by rcases hmode with rfl | rfl <;> decide
  have hb1 : '/' ∉ backend := by rcases hb with rfl | rfl | ⟨_, rfl | rfl⟩ <;> decide
  have hb2 : backend ∈ [lit "sparse", lit "numpy", lit "cuda", lit "sparse-cuda"] := by
    rcases hb with rfl | rfl | ⟨_, rfl | rfl⟩ <;> simp
  have hb3 : ¬ (backend ∈ [lit "cuda", lit "sparse-cuda"] ∧ cuda = false) := by
    rcases hb with rfl | rfl | ⟨hc, _⟩
    · decide +revert
    · decide +revert
    · simp [hc]
  have hmem := mem_globIf (acc := acc) hok h mode
  obtain ⟨disk', h1, h2, h3, h4, h5⟩ := batch_part hok h hm1 hm2 hm3 hb1 (faulty disk fault (process backend) cwd backend)
    (Listable acc top) (disk.globIf acc cwd path mode) hmem
  have hf : ∀ {ns stem t r}, CircuitFile disk top mode ns stem t →
      process backend (openedAs path (ns ++ [stem ++ '.' :: mode])) t = .ok r →
      faulty disk fault (process backend) cwd backend (openedAs path (ns ++ [stem ++ '.' :: mode])) t =
        match fault (resultPath top backend ns stem) with
        | none => .ok r
        | some .refused => .error .os
        | some (.stopped n) => .ok (r.take n) := by
    intro ns stem t r hc hr
    unfold faulty
    rw [hr]
    simp only
    rw [at_result hok h hm1 hm2 hb1 hc]
  have hf' : ∀ {ns stem t r}, CircuitFile disk top mode ns stem t →
      faulty disk fault (process backend) cwd backend (openedAs path (ns ++ [stem ++ '.' :: mode])) t = .ok r →
      ∃ r', process backend (openedAs path (ns ++ [stem ++ '.' :: mode])) t = .ok r' := by
    intro ns stem t r _ hr
    unfold faulty at hr
    cases hp : process backend (openedAs path (ns ++ [stem ++ '.' :: mode])) t with
    | ok r' => exact ⟨r', rfl⟩
    | error e => rw [hp] at hr; cases hr
  refine ⟨disk', ?_, h2, ?_, ?_, h5⟩
  · unfold batchMainIf
    rw [if_neg (not_not.2 hb2), if_neg hb3]
    simp only
    rw [fold_routineIf hok h hm1 hm2 hm3 hb1 fault (process backend) _ ⟨hok, fun _ => rfl, fun _ _ => rfl⟩, h1]
    intro p hp
    obtain ⟨ns, f, hg, _, ⟨stem, rfl⟩, _, rfl⟩ := (hmem p).1 hp
    exact ⟨ns, stem, by simpa [lit] using hg, by simp [lit]⟩
  · intro ns stem t r hc hl hr hd
    have e := hf hc hr
    cases hx : fault (resultPath top backend ns stem) with
    | none =>
      rw [hx] at e
      exact h3 ns stem t r hc hl e hd
    | some x =>
      cases x with
      | refused =>
        rw [hx] at e
        refine h4 _ fun ns' stem' t' r' hc' _ hr' he => ?_
        obtain ⟨rfl, rfl⟩ := resultPath_inj he
        have ht := hc.1
        rw [hc'.1] at ht
        cases ht
        rw [e] at hr'
        cases hr'
      | stopped n =>
        rw [hx] at e
        exact h3 ns stem t _ hc hl e hd
  · intro q hq
    refine h4 q fun ns stem t r hc hl hr => ?_
    obtain ⟨r', hr'⟩ := hf' hc hr
    exact hq ns stem t r' hc hl hr'

/-- **C99.** `experimental.py -m txt -b backend path` (or `-m qasm`) when directories cannot be listed and results cannot be saved. It does
not raise. There are names that lead to the circuit files such that, for each circuit file that does not fail and that lies in a
directory that it comes to, the result is afterwards in `stem-backend.pkl` beside it; if that cannot be opened it is as before, and if
writing it fails it holds a beginning of the result. No other file is written, created or removed. In particular one result that
cannot be saved does not affect the others. -/
theorem C99_batch (hok : disk.Ok) (_ : Plain path) (h : Leads disk cwd path top) (hmode : mode = lit "txt" ∨ mode = lit "qasm")
    (hb : backend = lit "sparse" ∨ backend = lit "numpy" ∨ cuda = true ∧ (backend = lit "cuda" ∨ backend = lit "sparse-cuda"))
    (acc : Access) (fault : List Text → Option SaveFault) (process : Text → Text → Text → PyM Text) :
    ∃ (name : List Text → Text → Text) (disk' : Dir), batchMainIf acc fault process cuda cwd mode backend path disk = .ok disk' ∧
      (∀ ns stem t, CircuitFile disk top mode ns stem t →
        disk.at cwd (name ns stem) = some (top ++ ns ++ [stem ++ '.' :: mode])) ∧
      (∀ ns stem t r, CircuitFile disk top mode ns stem t → Listable acc top ns → process backend (name ns stem) t = .ok r →
        disk.isDir (resultPath top backend ns stem) = false → disk'.text (resultPath top backend ns stem) =
          savedAs (fault (resultPath top backend ns stem)) (disk.text (resultPath top backend ns stem)) r) ∧
      (∀ q, (∀ ns stem t r, CircuitFile disk top mode ns stem t → Listable acc top ns → process backend (name ns stem) t = .ok r →
        q ≠ resultPath top backend ns stem) → disk'.text q = disk.text q) ∧
      (∀ ns stem, disk'.text (ns ++ [stem ++ '.' :: mode]) = disk.text (ns ++ [stem ++ '.' :: mode])) ∧
      (∀ q, disk'.isDir q = disk.isDir q) ∧ disk'.Ok := by
  obtain ⟨disk', h1, h2, h3, h4, h5⟩ := batchIf_opened hok h hmode hb acc fault process
  exact ⟨fun ns stem => openedAs path (ns ++ [stem ++ '.' :: mode]), disk', h1, h2, h3, h4, h5.sources, h5.dirs, h5.ok⟩

theorem globIf_all (disk : Dir) (cwd : List Text) (path mode : Text) : disk.globIf .all cwd path mode = disk.glob cwd path mode := by
  unfold Dir.globIf Dir.glob Dir.look
  cases disk.at cwd (globBase path) with
  | none => rfl
  | some top =>
    simp only
    cases disk.get top with
    | none => rfl
    | some e =>
      cases e with
      | file t => rfl
      | dir d =>
        simp only
        rw [if_neg (by simp [Access.all]), seen_all]
        congr 1
        funext dn
        cases disk.at cwd dn with
        | none => rfl
        | some ns =>
          simp only
          cases disk.get ns with
          | none => rfl
          | some e =>
            cases e with
            | file t => rfl
            | dir e => rfl

/-- **C99.** If nothing fails this is the script of C86. -/
theorem C99_none (hmode : mode = lit "txt" ∨ mode = lit "qasm") (process : Text → Text → Text → PyM Text) (load : Text → PyM Text) :
    batchMainIf .all (fun _ => none) process cuda cwd mode backend path disk =
      batchMain process load cuda cwd mode backend path disk := by
  have hm4 : mode ∈ [lit "txt", lit "qasm"] := by rcases hmode with rfl | rfl <;> simp
  unfold batchMainIf batchMain
  split
  · rfl
  · split
    · rfl
    · simp only
      rw [globIf_all]
      rfl

/-- **C99.** However many directories could not be listed and results not be saved: running the script again when nothing fails leaves
the same files as if nothing had failed the first time. -/
theorem C99_again (hok : disk.Ok) (_ : Plain path) (h : Leads disk cwd path top) (hmode : mode = lit "txt" ∨ mode = lit "qasm")
    (hb : backend = lit "sparse" ∨ backend = lit "numpy" ∨ cuda = true ∧ (backend = lit "cuda" ∨ backend = lit "sparse-cuda"))
    (acc : Access) (fault : List Text → Option SaveFault) (process : Text → Text → Text → PyM Text) (load : Text → PyM Text) :
    ∃ disk' again once, batchMainIf acc fault process cuda cwd mode backend path disk = .ok disk' ∧
      batchMain process load cuda cwd mode backend path disk' = .ok again ∧
      batchMain process load cuda cwd mode backend path disk = .ok once ∧
      ∀ q, again.text q = once.text q ∧ again.isDir q = once.isDir q := by
  obtain ⟨disk', h1, h2, h3, h4, h5⟩ := batchIf_opened hok h hmode hb acc fault process
  have h' : Leads disk' cwd path top := by
    refine ⟨?_, by rw [h5.dirs]; exact h.2⟩
    rcases h.1 with h0 | ⟨h0, h0'⟩
    · exact .inl h0
    · exact .inr ⟨h0, by rw [Dir.at, follow_congr h5.dirs, ← Dir.at]; exact h0'⟩
  obtain ⟨once, o1, o2, o3, o4, o5⟩ := batchIf_opened hok h hmode hb .all (fun _ => none) process
  obtain ⟨again, a1, a2, a3, a4, a5⟩ := batchIf_opened h5.ok h' hmode hb .all (fun _ => none) process
  rw [C99_none hmode process load] at o1 a1
  have all : ∀ ns, Listable .all top ns := fun _ _ _ => rfl
  have circ : ∀ ns stem t, CircuitFile disk' top mode ns stem t ↔ CircuitFile disk top mode ns stem t := by
    intro ns stem t
    rw [CircuitFile, CircuitFile, h5.sources]
  refine ⟨disk', again, once, h1, a1, o1, fun q => ⟨?_, by rw [a5.dirs, o5.dirs, h5.dirs]⟩⟩
  by_cases hq : ∃ ns stem t r, CircuitFile disk top mode ns stem t ∧
      process backend (openedAs path (ns ++ [stem ++ '.' :: mode])) t = .ok r ∧ q = resultPath top backend ns stem
  · obtain ⟨ns, stem, t, r, hc, hr, rfl⟩ := hq
    by_cases hd : disk.isDir (resultPath top backend ns stem) = false
    · rw [o3 ns stem t r hc (all ns) hr hd, a3 ns stem t r ((circ ns stem t).2 hc) (all ns) hr (by rw [h5.dirs]; exact hd)]
      rfl
    · have none_of : ∀ d : Dir, d.isDir (resultPath top backend ns stem) = true → d.text (resultPath top backend ns stem) = none := by
        intro d hd
        obtain ⟨e, he⟩ := isDir_iff.1 hd
        cases ht : d.text (resultPath top backend ns stem) with
        | none => rfl
        | some t => rw [text_iff.1 ht] at he; cases he
      have hd : disk.isDir (resultPath top backend ns stem) = true := by simpa using hd
      rw [none_of again (by rw [a5.dirs, h5.dirs]; exact hd), none_of once (by rw [o5.dirs]; exact hd)]
  · have hne : ∀ ns stem t r, CircuitFile disk top mode ns stem t →
        process backend (openedAs path (ns ++ [stem ++ '.' :: mode])) t = .ok r → q ≠ resultPath top backend ns stem :=
      fun ns stem t r h1 h2 h3 => hq ⟨ns, stem, t, r, h1, h2, h3⟩
    rw [a4 q fun ns stem t r hc _ => hne ns stem t r ((circ ns stem t).1 hc), h4 q fun ns stem t r hc _ => hne ns stem t r hc,
      o4 q fun ns stem t r hc _ => hne ns stem t r hc]

/-- **C99.** A result of which only a beginning could be saved, and one that cannot be read, is not noticed by the batch but makes the
script raise when it shows the results. -/
theorem C99_shown (hok : disk.Ok) (hp : Plain path) (h : Leads disk cwd path top) (hmode : mode = lit "txt" ∨ mode = lit "qasm")
    (hb : backend = lit "sparse" ∨ backend = lit "numpy" ∨ cuda = true ∧ (backend = lit "cuda" ∨ backend = lit "sparse-cuda"))
    (acc : Access) (fault : List Text → Option SaveFault) (process : Text → Text → Text → PyM Text) (load : Text → PyM Text)
    {ns : List Text} {stem t : Text} (hc : CircuitFile disk top mode ns stem t) (hl : Listable acc top ns)
    (hd : disk.isDir (resultPath top backend ns stem) = false) {n : Nat} (hf : fault (resultPath top backend ns stem) = some (.stopped n))
    (hbad : ∀ file, disk.at cwd file = some (top ++ ns ++ [stem ++ '.' :: mode]) →
      ∃ r e, process backend file t = .ok r ∧ load (r.take n) = .error e) :
    ∃ disk' e, batchMainIf acc fault process cuda cwd mode backend path disk = .ok disk' ∧
      batchMain process load cuda cwd (lit "pkl") backend path disk' = .error e := by
  obtain ⟨disk', h1, h2, h3, h4, h5⟩ := batchIf_opened hok h hmode hb acc fault process
  have h' : Leads disk' cwd path top := by
    refine ⟨?_, by rw [h5.dirs]; exact h.2⟩
    rcases h.1 with h0 | ⟨h0, h0'⟩
    · exact .inl h0
    · exact .inr ⟨h0, by rw [Dir.at, follow_congr h5.dirs, ← Dir.at]; exact h0'⟩
  obtain ⟨r, e, hr, he⟩ := hbad _ (h2 ns stem t hc)
  have ht := h3 ns stem t r hc hl hr hd
  rw [hf] at ht
  have hbelow : Entry.Below disk' top (lit "pkl") (resultPath top backend ns stem) := by
    refine ⟨ns, _, rfl, by rw [text_iff.1 ht]; simp, ?_, ⟨stem ++ lit "-" ++ backend, rfl⟩⟩
    intro x hx
    rcases List.mem_append.1 hx with hx | hx
    · exact hc.2 x (by simp [hx])
    · rw [List.mem_singleton.1 hx]
      have hs := hc.2 (stem ++ '.' :: mode) (by simp)
      rintro ⟨y, hy⟩
      cases stem with
      | nil => exact hs ⟨mode, rfl⟩
      | cons c stem =>
        simp [lit] at hy
        exact hs ⟨stem ++ '.' :: mode, by rw [← hy.1]; rfl⟩
  obtain ⟨e', he'⟩ := C94_incomplete h5.ok (cuda := cuda) hp h' (.inl rfl) hb process load hbelow (e := e) (by rw [readBack, ht]; exact he)
  exact ⟨disk', e', h1, he'⟩

end

/-! ### The hypotheses hold in concrete cases -/

/-- `t/a-sparse.pkl` gets three characters, then the disk is full. -/
def sampleFault (q : List Text) : Option SaveFault := if q = [lit "t", lit "a-sparse.pkl"] then some (.stopped 3) else none

/-- The directory `t/s` cannot be listed. -/
def sampleAccess : Access := ⟨fun q => q = [lit "t", lit "s"], fun _ => none, fun _ => none, fun _ => none⟩

theorem sample_leads : Leads sampleDisk [lit "t"] (lit "./s/..//") [lit "t"] := ⟨.inr ⟨by decide, by decide +kernel⟩, rfl⟩

theorem sample_a : CircuitFile sampleDisk [lit "t"] (lit "txt") [] (lit "a") (lit "1") := ⟨rfl, by unfold Shown; decide⟩

theorem sample_b : CircuitFile sampleDisk [lit "t"] (lit "txt") [lit "s"] (lit "b") (lit "2") := ⟨rfl, by unfold Shown; decide⟩

/-- One result is incomplete, the other one is there. -/
example : ∃ disk', batchMainIf .all sampleFault (fun _ _ t => .ok (lit "result" ++ t)) false [lit "t"] (lit "txt") (lit "sparse")
      (lit "./s/..//") sampleDisk = .ok disk' ∧
    disk'.text [lit "t", lit "a-sparse.pkl"] = some (lit "res") ∧
    disk'.text [lit "t", lit "s", lit "b-sparse.pkl"] = some (lit "result2") := by
  obtain ⟨name, disk', h1, h2, h3, h4, h5, _⟩ := C99_batch sampleDisk_ok (cuda := false) (by unfold Plain; decide) sample_leads
    (.inl rfl) (.inl rfl) .all sampleFault (fun _ _ t => .ok (lit "result" ++ t))
  exact ⟨disk', h1, h3 [] (lit "a") (lit "1") _ sample_a (fun _ _ => rfl) rfl rfl, h3 [lit "s"] (lit "b") (lit "2") _ sample_b (fun _ _ => rfl) rfl rfl⟩

/-- What is in the directory that cannot be listed is passed over. -/
example : ∃ disk', batchMainIf sampleAccess (fun _ => none) (fun _ _ t => .ok (lit "result" ++ t)) false [lit "t"] (lit "txt")
      (lit "sparse") (lit "./s/..//") sampleDisk = .ok disk' ∧
    disk'.text [lit "t", lit "a-sparse.pkl"] = some (lit "result1") ∧
    disk'.text [lit "t", lit "s", lit "b-sparse.pkl"] = none := by
  obtain ⟨name, disk', h1, h2, h3, h4, h5, _⟩ := C99_batch sampleDisk_ok (cuda := false) (by unfold Plain; decide) sample_leads
    (.inl rfl) (.inl rfl) sampleAccess (fun _ => none) (fun _ _ t => .ok (lit "result" ++ t))
  refine ⟨disk', h1, h3 [] (lit "a") (lit "1") _ sample_a (fun xs hx => ?_) rfl rfl, ?_⟩
  · rw [List.prefix_nil.1 hx]; decide
  · refine (h4 _ ?_).trans rfl
    intro ns stem t r hc hl hr he
    have hns := (resultPath_inj (ns := [lit "s"]) (s := lit "b") (top := [lit "t"]) (b := lit "sparse")
      (show resultPath [lit "t"] (lit "sparse") [lit "s"] (lit "b") = _ from he)).1
    have := hl [lit "s"] (by rw [← hns])
    exact absurd this (by decide)

/-- The batch ends well, but its results cannot be shown. -/
example : ∃ disk' e, batchMainIf .all sampleFault (fun _ _ t => .ok (lit "result" ++ t)) false [lit "t"] (lit "txt") (lit "sparse")
      (lit "./s/..//") sampleDisk = .ok disk' ∧
    batchMain (fun _ _ t => .ok (lit "result" ++ t)) (fun t => if t.length < 7 then .error .exception else .ok t) false [lit "t"]
      (lit "pkl") (lit "sparse") (lit "./s/..//") disk' = .error e :=
  C99_shown sampleDisk_ok (by unfold Plain; decide) sample_leads (.inl rfl) (.inl rfl) .all sampleFault _ _ sample_a (fun _ _ => rfl)
    rfl rfl fun _ _ => ⟨_, _, rfl, rfl⟩

end QuDiet.Tools
