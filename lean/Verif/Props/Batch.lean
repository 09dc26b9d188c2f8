import Verif.Batch
import Verif.Props.Glob
import Verif.Props.Qasm
import Verif.Props.QasmFile
import Verif.Props.Layers

/-! # C87: what the batch runner saves -/

namespace QuDiet.Tools
open QuDiet.Qasm Spec

variable {R : Type} [CommRing R] [StarRing R] [DecidableEq R] [UnitaryCheck R]

/-- What is computed for a file, through `circuit_from_qasm` and `run()`. -/
theorem experiment_text (N : Numerics R) (B : Backend R) (file : Text) :
    experiment N B file = (do
      let c ← circuitFromQasm (R := R) (universal file)
      let value ← c.runResult N B
      .ok ⟨value, c.width, c.depth⟩) := by
  unfold experiment parseQasm
  cases circuitFromQasm (R := R) (universal file) with
  | error e => rfl
  | ok c =>
    change (do let value ← (c.run N B).2; Except.ok (Saved.mk value (c.run N B).1.width (c.run N B).1.depth)) = _
    unfold Circuit.run
    change _ = (do let value ← c.runResult N B; Except.ok (Saved.mk value c.width c.depth))
    cases c.runResult N B <;> rfl

/-- A file that is not accepted, or a circuit that does not run. -/
theorem experiment_error {N : Numerics R} {B : Backend R} {file : Text} {e : Err}
    (h : runText N B (universal file) = .error e) : experiment N B file = .error e := by
  rw [experiment_text]
  unfold runText at h
  cases hc : circuitFromQasm (R := R) (universal file) with
  | error e' => rw [hc] at h; cases h; rfl
  | ok c =>
    rw [hc] at h
    change (c.run N B).2 = .error e at h
    rw [run_result] at h
    change (do let value ← c.runResult N B; Except.ok (Saved.mk value c.width c.depth)) = _
    rw [h]; rfl

variable [Nontrivial R]

/-- Files of valid programs. -/
theorem experiment_program {N : Numerics R} (hN : N.Sized) {B : Backend R} (hB : B.Lawful) {p : Program} (h : p.Ok)
    (hne : p.dims ≠ []) (h2 : ∀ d ∈ p.dims, 2 ≤ d) (hv : ∀ k ∈ p.calls (R := R), k.Valid p.dims) {f : Text}
    (hf : Written p.text f) :
    experiment N B f = .ok ⟨shown p.dims (p.calls.foldl (fun ψ k => meaning N p.dims k ψ) (basis (p.dims.map fun _ => 0))),
      .num p.dims.length, (layering p.dims.length (p.calls (R := R))).length⟩ := by
  have ha : ∀ k ∈ p.calls (R := R), fate p.dims k ≠ .rejected ∧ fate p.dims k ≠ .odd :=
    fun k hk => by rw [(hv k hk).applied h2]; simp
  have hnm : ∀ k ∈ p.calls (R := R), k.isMeasureAll = false := by
    intro k hk
    cases k <;> first | rfl | exact absurd hk (calls_no_measure p)
  have hrun := C27_run hN hB h hne h2 hv
  rw [experiment_text, universal_written hf]
  unfold runText at hrun
  rw [text_accepted h hne h2 ha] at hrun ⊢
  change (Circuit.run N B _).2 = _ at hrun
  rw [run_result] at hrun
  change (do let value ← Circuit.runResult N B _; Except.ok (Saved.mk value _ _)) = _
  rw [hrun]
  have hdepth := depth_eq (R := R) (q := .list (p.dims.map Int.ofNat)) (List.length_pos_of_ne_nil hne) [] none
    (p.calls ++ [.measureAll])
  rw [live_append_measure hnm] at hdepth
  have hkept : kept (freshCircuit (R := R) (.list (p.dims.map Int.ofNat)) p.dims [] none) (p.calls (R := R)) = p.calls := by
    unfold kept
    rw [List.filter_eq_self]
    intro k hk
    have := answer_ok hne (validStart_dims h2) none (ks := []) (by simp) (hnm k hk) (ha k hk).1 (ha k hk).2
    rw [answer_eq rfl (validStart_dims h2)] at this
    change ((freshCircuit (R := R) (.list (p.dims.map Int.ofNat)) p.dims [] none).call k).2 = _ at this
    rw [this]
  rw [hkept] at hdepth
  have hwidth : ((freshCircuit (R := R) (.list (p.dims.map Int.ofNat)) p.dims [] none).calls
      (p.calls ++ [.measureAll])).width = .num p.dims.length := by
    obtain ⟨⟨f, hf⟩, _⟩ := reach_any (R := R) (q := .list (p.dims.map Int.ofNat)) (List.length_pos_of_ne_nil hne) [] none
      (p.calls ++ [.measureAll])
    rw [hf]
    change Width.num ((p.dims.map Int.ofNat).map Int.toNat).length = _
    simp
  change Except.ok (Saved.mk _ (Circuit.width _) (Circuit.depth _)) = _
  rw [hdepth, hwidth]

/-- The backends give the same. -/
theorem experiment_backend (N : Numerics R) {B B' : Backend R} (hB : B.Lawful) (hB' : B'.Lawful) (f : Text) :
    experiment N B f = experiment N B' f := by
  rw [experiment_text, experiment_text]
  congr 1
  funext c
  rw [runResult_backend hB, runResult_backend hB']

omit [Nontrivial R] in
theorem chosen_lawful {cudaB sparseCudaB : Backend R} (hc : cudaB.Lawful) (hs : sparseCudaB.Lawful) (option : Text) :
    (chosen cudaB sparseCudaB option).Lawful := by
  unfold chosen
  split_ifs
  exacts [sparse_lawful, numpy_lawful, hc, hs]

/-- **C87.** `experimental.py -m mode -b option path`, for an argument that leads to a directory. (1) A circuit file that
holds a program with registers of at least two levels and valid calls, with any line ends, gets a result file with the
non-zero amplitudes of the state after these calls, the number of registers and the number of layers. (2) What is at the place
of the result of a circuit file that cannot be read or run stays as it was, so that an old result goes on lying there. -/
theorem C87_results {N : Numerics R} (hN : N.Sized) {cudaB sparseCudaB : Backend R} (hc : cudaB.Lawful)
    (hs : sparseCudaB.Lawful) {disk : Dir} (hok : disk.Ok) {cuda : Bool} {cwd : List Text} {path : Text} {top : List Text}
    (hp : Plain path) (h : Leads disk cwd path top) {mode : Text} (hmode : mode = lit "txt" ∨ mode = lit "qasm") {option : Text}
    (hb : option = lit "sparse" ∨ option = lit "numpy" ∨ cuda = true ∧ (option = lit "cuda" ∨ option = lit "sparse-cuda"))
    (pickle : Text → Text → Saved R → Text) (load : Text → PyM Text) :
    ∃ (name : List Text → Text → Text) (disk' : Dir),
      experimentMain N cudaB sparseCudaB pickle load cuda cwd mode option path disk = .ok disk' ∧
      (∀ ns stem f, CircuitFile disk top mode ns stem f →
        disk.at cwd (name ns stem) = some (top ++ ns ++ [stem ++ '.' :: mode])) ∧
      (∀ ns stem f (p : Program), CircuitFile disk top mode ns stem f → p.Ok → Written p.text f → p.dims ≠ [] →
        (∀ d ∈ p.dims, 2 ≤ d) → (∀ k ∈ p.calls (R := R), k.Valid p.dims) →
        disk.isDir (resultPath top option ns stem) = false →
        disk'.text (resultPath top option ns stem) = some (pickle option (name ns stem)
          ⟨shown p.dims (p.calls.foldl (fun ψ k => meaning N p.dims k ψ) (basis (p.dims.map fun _ => 0))),
            .num p.dims.length, (layering p.dims.length (p.calls (R := R))).length⟩)) ∧
      (∀ ns stem f e, CircuitFile disk top mode ns stem f → runText N (numpyBackend R) (universal f) = .error e →
        disk'.text (resultPath top option ns stem) = disk.text (resultPath top option ns stem)) := by
  obtain ⟨name, disk', h1, h2, h3, h4, _⟩ := C86_batch hok (cuda := cuda) hp h hmode hb
    (fun option file text => do .ok (pickle option file (← experiment N (chosen cudaB sparseCudaB option) text))) load
  refine ⟨name, disk', h1, h2, ?_, ?_⟩
  · intro ns stem f p hf hpok hw hne hd hv hdir
    refine h3 ns stem f _ hf ?_ hdir
    rw [experiment_program hN (chosen_lawful hc hs option) hpok hne hd hv hw]
    rfl
  · intro ns stem f e hf he
    refine h4 _ fun ns' stem' t r ht hr heq => ?_
    obtain ⟨rfl, rfl⟩ := resultPath_inj heq
    have : t = f := by
      have := ht.1.symm.trans hf.1
      exact Option.some.inj this
    subst this
    rw [experiment_backend N (chosen_lawful hc hs option) numpy_lawful, experiment_error he] at hr
    cases hr

theorem leads_same {d e : Dir} (hd : ∀ q, e.isDir q = d.isDir q) {cwd : List Text} {path : Text} {top : List Text}
    (h : Leads d cwd path top) : Leads e cwd path top := by
  refine ⟨?_, by rw [hd]; exact h.2⟩
  rcases h.1 with h | ⟨h1, h2⟩
  · exact .inl h
  · refine .inr ⟨h1, ?_⟩
    rw [← h2]
    exact follow_congr hd _ _

/-- **C87.** Dense and sparse runs agree: after both have been made, in any order, the two result files of every circuit file
(whatever its contents) hold the same value, width and depth, or neither run wrote one. -/
theorem C87_backends_agree (N : Numerics R) (cudaB sparseCudaB : Backend R) {disk : Dir} (hok : disk.Ok) {cuda : Bool}
    {cwd : List Text} {path : Text} {top : List Text} (hp : Plain path) (h : Leads disk cwd path top) {mode : Text}
    (hmode : mode = lit "txt" ∨ mode = lit "qasm") {o1 o2 : Text}
    (ho : o1 = lit "sparse" ∧ o2 = lit "numpy" ∨ o1 = lit "numpy" ∧ o2 = lit "sparse")
    (pickle1 pickle2 : Text → Text → Saved R → Text) (load : Text → PyM Text) :
    ∃ disk1 disk2, experimentMain N cudaB sparseCudaB pickle1 load cuda cwd mode o1 path disk = .ok disk1 ∧
      experimentMain N cudaB sparseCudaB pickle2 load cuda cwd mode o2 path disk1 = .ok disk2 ∧
      ∀ ns stem f, CircuitFile disk top mode ns stem f → disk.isDir (resultPath top o1 ns stem) = false →
        disk.isDir (resultPath top o2 ns stem) = false →
        (∃ (s : Saved R) (name1 name2 : Text), disk2.text (resultPath top o1 ns stem) = some (pickle1 o1 name1 s) ∧
          disk2.text (resultPath top o2 ns stem) = some (pickle2 o2 name2 s)) ∨
        (disk2.text (resultPath top o1 ns stem) = disk.text (resultPath top o1 ns stem) ∧
          disk2.text (resultPath top o2 ns stem) = disk.text (resultPath top o2 ns stem)) := by
  have hb1 : o1 = lit "sparse" ∨ o1 = lit "numpy" ∨ cuda = true ∧ (o1 = lit "cuda" ∨ o1 = lit "sparse-cuda") := by
    rcases ho with ⟨h, _⟩ | ⟨h, _⟩ <;> simp [h]
  have hb2 : o2 = lit "sparse" ∨ o2 = lit "numpy" ∨ cuda = true ∧ (o2 = lit "cuda" ∨ o2 = lit "sparse-cuda") := by
    rcases ho with ⟨_, h⟩ | ⟨_, h⟩ <;> simp [h]
  have hlaw : ∀ o, o = o1 ∨ o = o2 → (chosen cudaB sparseCudaB o).Lawful := by
    intro o hoo
    have : o = lit "sparse" ∨ o = lit "numpy" := by
      rcases ho with ⟨h, h'⟩ | ⟨h, h'⟩ <;> rcases hoo with rfl | rfl <;> simp [h, h']
    rcases this with rfl | rfl
    · exact sparse_lawful
    · exact numpy_lawful
  have hne : ∀ ns ns' s s', resultPath top o1 ns s ≠ resultPath top o2 ns' s' := by
    intro ns ns' s s' heq
    have h1 := congrArg (fun l => (l.getLast?.getD []).reverse.take 6) heq
    unfold resultPath at h1
    rcases ho with ⟨rfl, rfl⟩ | ⟨rfl, rfl⟩ <;> simp [lit] at h1
  obtain ⟨name1, disk1, h1, _, h3, h4, h5, h6, h7⟩ := C86_batch hok (cuda := cuda) hp h hmode hb1
    (fun option file text => do .ok (pickle1 option file (← experiment N (chosen cudaB sparseCudaB option) text))) load
  have hl1 : Leads disk1 cwd path top := leads_same h6 h
  obtain ⟨name2, disk2, k1, _, k3, k4, _⟩ := C86_batch h7 (cuda := cuda) hp hl1 hmode hb2
    (fun option file text => do .ok (pickle2 option file (← experiment N (chosen cudaB sparseCudaB option) text))) load
  refine ⟨disk1, disk2, h1, k1, ?_⟩
  intro ns stem f hf hd1 hd2
  have hf1 : CircuitFile disk1 top mode ns stem f := ⟨by rw [h5]; exact hf.1, hf.2⟩
  cases he : experiment N (numpyBackend R) f with
  | ok s =>
    left
    refine ⟨s, name1 ns stem, name2 ns stem, ?_, ?_⟩
    · rw [k4 _ fun ns' stem' t r _ _ heq => hne _ _ _ _ heq]
      refine h3 ns stem f _ hf ?_ hd1
      rw [experiment_backend N (hlaw o1 (.inl rfl)) numpy_lawful, he]
      rfl
    · refine k3 ns stem f _ hf1 ?_ (by rw [h6]; exact hd2)
      rw [experiment_backend N (hlaw o2 (.inr rfl)) numpy_lawful, he]
      rfl
  | error e =>
    right
    constructor
    · rw [k4 _ fun ns' stem' t r _ _ heq => hne _ _ _ _ heq]
      refine h4 _ fun ns' stem' t r ht hr heq => ?_
      obtain ⟨rfl, rfl⟩ := resultPath_inj heq
      obtain rfl : t = f := Option.some.inj (ht.1.symm.trans hf.1)
      rw [experiment_backend N (hlaw o1 (.inl rfl)) numpy_lawful, he] at hr
      cases hr
    · rw [k4, h4]
      · intro ns' stem' t r _ _ heq
        exact hne _ _ _ _ heq.symm
      · intro ns' stem' t r ht hr heq
        obtain ⟨rfl, rfl⟩ := resultPath_inj heq
        obtain rfl : t = f := Option.some.inj (ht.1.symm.trans hf1.1)
        rw [experiment_backend N (hlaw o2 (.inr rfl)) numpy_lawful, he] at hr
        cases hr

/-! ### The hypotheses hold in a concrete case -/

/-- A directory with a circuit file, a file that is no program, and an old result. -/
def lab (t : Text) : Dir :=
  .dir (lit "lab") (.file (lit "a.qasm") t (.file (lit "b.qasm") (lit "x0")
    (.file (lit "b-numpy.pkl") (lit "old") .nil))) .nil

theorem lab_ok (t : Text) : (lab t).Ok :=
  ⟨by decide, rfl, ⟨by decide, rfl, by decide, rfl, by decide, rfl, trivial⟩, trivial⟩

/-- The circuit file is the sample program of C27 with Windows line ends. -/
def labDisk : Dir := lab (withEnds (lit "\r\n") sample.text)

theorem labDisk_ok : labDisk.Ok := lab_ok _

theorem sample_valid : ∀ k ∈ sample.calls (R := ℤ), k.Valid sample.dims := by
  have e : sample.calls (R := ℤ) = [.x 0 none 1, .x 3 none (-4), .h 1 none, .z 2 none, .cx 0 2 1, .cx 3 0 7, .cx 1 3 1] := rfl
  have d : sample.dims = [5, 2, 3, 12] := by decide +kernel
  rw [e, d]
  intro k hk
  fin_cases hk <;> simp [Call.Valid, InRange, DimOK]

/-- The program gets its result, and the old result of the other file stays. -/
example (pickle : Text → Text → Saved ℤ → Text) (load : Text → PyM Text) : ∃ (name : Text) (disk' : Dir),
    experimentMain sampleN (numpyBackend ℤ) (numpyBackend ℤ) pickle load false [lit "lab"] (lit "qasm") (lit "numpy") (lit ".") labDisk =
      .ok disk' ∧
    disk'.text [lit "lab", lit "a-numpy.pkl"] = some (pickle (lit "numpy") name
      ⟨shown sample.dims (sample.calls.foldl (fun ψ k => meaning sampleN sample.dims k ψ) (basis (sample.dims.map fun _ => 0))),
        .num 4, 4⟩) ∧
    disk'.text [lit "lab", lit "b-numpy.pkl"] = some (lit "old") := by
  obtain ⟨name, disk', h1, _, h3, h4⟩ := C87_results (R := ℤ) sampleN_sized numpy_lawful numpy_lawful labDisk_ok (cuda := false)
    (cwd := [lit "lab"]) (path := lit ".") (top := [lit "lab"]) (by unfold Plain; decide)
    ⟨.inr ⟨by decide, by decide +kernel⟩, rfl⟩ (.inr rfl) (.inr (.inl rfl)) pickle load
  refine ⟨name [] (lit "a"), disk', h1, ?_, ?_⟩
  · have := h3 [] (lit "a") _ sample ⟨rfl, by unfold Shown; decide⟩ sample_ok (C74_written (by decide +kernel)).2.1
      (by decide +kernel) (by decide +kernel) sample_valid (by decide +kernel)
    have hl : (layering sample.dims.length (sample.calls (R := ℤ))).length = 4 := by decide +kernel
    rw [hl] at this
    exact this
  · rw [show [lit "lab", lit "b-numpy.pkl"] = resultPath [lit "lab"] (lit "numpy") [] (lit "b") from rfl,
      h4 [] (lit "b") (lit "x0") .index ⟨by decide +kernel, by unfold Shown; decide⟩ (by decide +kernel)]
    decide +kernel

end QuDiet.Tools
