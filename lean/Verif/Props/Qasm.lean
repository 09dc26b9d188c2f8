import Verif.Lemmas.Qasm3
import Verif.Props.Measure
import Verif.Props.Gates

/-! # C27–C31: reading QASM -/

namespace QuDiet

namespace Qasm
open Spec

/-! ### Samples -/

/-- The program of the test `test_parser_2` in tests/test_qasm_parser.py, with other instructions. -/
def sample : Program where
  first := lit "OPENQASM 2.0;"
  more := [lit "# a comment", []]
  word := .qudit
  count := 4
  blanks := 1
  decls := [.qudit 0 5, .qubit 1, .note (lit "   "), .qutrit 2, .qudit 3 12]
  instrs := [.x 0, .xPlus 3 (-4), .note (lit "x x0"), .h 1, .z 2, .note [], .cx 0 2, .cxPlus 3 0 7, .cnot 1 3]
  tail := lit "\n"

theorem ignored_of {l : Text}
    (h : ((["X", "H", "Z", "CX", "CNOT", "Toffoli"].all fun p => !p.toList.isPrefixOf l) &&
      !("RX".toList.isPrefixOf l && "180".toList.isSuffixOf l)) = true) : Ignored l := by
  rw [Bool.and_eq_true, List.all_eq_true] at h
  refine ⟨fun p hp hc => ?_, fun ⟨h1, h2⟩ => ?_⟩
  · have := h.1 p hp
    rw [List.isPrefixOf_iff_prefix.2 hc] at this
    cases this
  · have := h.2
    rw [List.isPrefixOf_iff_prefix.2 h1, List.isSuffixOf_iff_suffix.2 h2] at this
    cases this

/-- A check of `Line`. -/
def lineCheck (l : Text) : Bool := !l.contains '\n' && l.head? != some '.'

/-- A check of `Ignored`. -/
def ignoredCheck (l : Text) : Bool :=
  (["X", "H", "Z", "CX", "CNOT", "Toffoli"].all fun p => !p.toList.isPrefixOf l) &&
    !("RX".toList.isPrefixOf l && "180".toList.isSuffixOf l)

/-- A check of `Program.Ok`. -/
def Program.check (p : Program) : Bool :=
  !p.first.contains '\n' && p.more.all lineCheck &&
    (p.decls.all fun d => match d with
      | .note l => lineCheck l && !l.contains 'q' && !l.contains ')'
      | _ => true) &&
    p.instrs.all fun i => match i with
      | .note l => lineCheck l && ignoredCheck l
      | _ => true

theorem line_of {l : Text} (h : lineCheck l = true) : Line l := by
  unfold lineCheck at h
  rw [Bool.and_eq_true] at h
  exact ⟨by simpa using h.1, by simpa using h.2⟩

theorem ok_of {p : Program} (h : p.check = true) : p.Ok := by
  unfold Program.check at h
  simp only [Bool.and_eq_true, List.all_eq_true] at h
  obtain ⟨⟨⟨h1, h2⟩, h3⟩, h4⟩ := h
  refine ⟨by simpa using h1, fun l hl => line_of (h2 l hl), fun d hd => ?_, fun i hi => ?_⟩
  · have := h3 d hd
    cases d with
    | note l =>
      simp only [Bool.and_eq_true] at this
      exact ⟨line_of this.1.1, by simpa using this.1.2, by simpa using this.2⟩
    | _ => trivial
  · have := h4 i hi
    cases i with
    | note l =>
      simp only [Bool.and_eq_true] at this
      exact ⟨line_of this.1, ignored_of this.2⟩
    | _ => trivial

theorem sample_ok : sample.Ok := ok_of (by decide +kernel)

example : sample.text = lit "OPENQASM 2.0;
# a comment

.qudit 4 
qudit x0 (5)
qubit x1
   
qutrit x2
qudit x3 (12)
.begin
X x0
X x3 -4
x x0
H x1
Z x2

CX x0 x2
CX x3 x0 7
CNOT x1 x3
.end
" := by decide +kernel

/-! ### C27 -/

section
variable {R : Type} [CommRing R]

/-- **C27.** A program text gives the same circuit, or raises the same exception, as the constructor with the
dimensions and the calls of the program, then `measure_all()`. -/
theorem C27_program {p : Program} (h : p.Ok) : circuitFromQasm (R := R) p.text = build p.dims p.calls :=
  program_circuit h

/-- **C27.** Without Toffoli lines the dimensions are the declared ones. -/
theorem C27_declared_dims {p : Program} (h : ∀ a b c, Instr.toffoli a b c ∉ p.instrs) : p.dims = p.declared := by
  have hm : p.instrs.filterMap Instr.middle = [] := by
    rw [List.filterMap_eq_nil_iff]
    intro i hi
    cases i with
    | toffoli a b c => exact absurd hi (h a b c)
    | _ => rfl
  unfold Program.dims
  rw [hm]
  simp

example : circuitFromQasm (R := R) sample.text = build [5, 2, 3, 12]
    [.x 0 none 1, .x 3 none (-4), .h 1 none, .z 2 none, .cx 0 2 1, .cx 3 0 7, .cx 1 3 1] :=
  C27_program sample_ok

example : sample.dims = [5, 2, 3, 12] := C27_declared_dims (by
  intro a b c h
  have : (sample.instrs.all fun i => match i with | .toffoli .. => false | _ => true) = true := rfl
  cases List.all_eq_true.1 this _ h)

/-! ### Calls that stop at the first exception -/

theorem foldlM_calls (ks : List (Call R)) (c : Circuit R)
    (h : ∀ pre k post, ks = pre ++ k :: post → ∃ b, ((c.calls pre).call k).2 = .ok b) :
    ks.foldlM (fun c k => do .ok (← c.callM k).1) c = (.ok (c.calls ks) : PyM (Circuit R)) := by
  induction ks generalizing c with
  | nil => rfl
  | cons k ks ih =>
    obtain ⟨b, hb⟩ := h [] k ks rfl
    have e : c.callM k = .ok ((c.call k).1, b) := by
      change (c.call k).2 = .ok b at hb
      unfold Circuit.call at hb ⊢
      cases hc : c.callM k with
      | error e => rw [hc] at hb; cases hb
      | ok r => rw [hc] at hb; cases hb; rfl
    rw [List.foldlM_cons, e]
    exact ih _ fun pre k' post hks => h (k :: pre) k' post (by rw [hks]; rfl)

theorem calls_foldlM {ks : List (Call R)} {c c' : Circuit R}
    (h : ks.foldlM (fun c k => do .ok (← c.callM k).1) c = (.ok c' : PyM (Circuit R))) :
    c' = c.calls ks ∧ ∀ pre k post, ks = pre ++ k :: post → ∃ b, ((c.calls pre).call k).2 = .ok b := by
  induction ks generalizing c with
  | nil =>
    cases h
    exact ⟨rfl, fun pre k post hks => by simp at hks⟩
  | cons k ks ih =>
    rw [List.foldlM_cons] at h
    cases hc : c.callM k with
    | error e => rw [hc] at h; cases h
    | ok r =>
      rw [hc] at h
      have hcall : c.call k = (r.1, .ok r.2) := by unfold Circuit.call; rw [hc]
      obtain ⟨h1, h2⟩ := ih (c := r.1) h
      refine ⟨by rw [Circuit.calls_cons, hcall]; exact h1, ?_⟩
      intro pre k' post hks
      cases pre with
      | nil =>
        cases hks
        exact ⟨r.2, by change (c.call k).2 = _; rw [hcall]⟩
      | cons a pre =>
        cases hks
        obtain ⟨b, hb⟩ := h2 pre k' post rfl
        exact ⟨b, by rw [Circuit.calls_cons, hcall]; exact hb⟩

theorem calls_no_measure (p : Program) : Call.measureAll ∉ p.calls (R := R) := by
  intro h
  obtain ⟨i, _, hi⟩ := List.mem_filterMap.1 h
  cases i <;> cases hi

/-- What the reader returns, if it returns. -/
theorem text_ok {p : Program} (h : p.Ok) {c : Circuit R} (hc : circuitFromQasm p.text = .ok c) :
    ∃ c0, Circuit.new (R := R) (.list (p.dims.map Int.ofNat)) [] none = .ok c0 ∧ c = c0.calls (p.calls ++ [.measureAll]) ∧
      ∀ pre k post, p.calls (R := R) = pre ++ k :: post →
        ∃ b, answer (.list (p.dims.map Int.ofNat)) [] none pre k = .ok b := by
  rw [C27_program h] at hc
  unfold build at hc
  cases hn : Circuit.new (R := R) (.list (p.dims.map Int.ofNat)) [] none with
  | error e => rw [hn] at hc; cases hc
  | ok c0 =>
    rw [hn] at hc
    obtain ⟨h1, h2⟩ := calls_foldlM (c := c0) hc
    refine ⟨c0, rfl, h1, ?_⟩
    intro pre k post hk
    obtain ⟨b, hb⟩ := h2 pre k (post ++ [.measureAll]) (by rw [hk]; simp)
    refine ⟨b, ?_⟩
    unfold answer
    rw [hn]
    exact hb

variable [StarRing R] [DecidableEq R] [UnitaryCheck R]

theorem run_result (N : Numerics R) (B : Backend R) (c : Circuit R) : (c.run N B).2 = c.runResult N B := by
  unfold Circuit.run
  cases c.runResult N B <;> rfl

theorem runText_cases {p : Program} (h : p.Ok) (N : Numerics R) (B : Backend R) :
    (∃ e, runText N B p.text = .error e) ∨
      runText N B p.text = script N B (.list (p.dims.map Int.ofNat)) [] none (p.calls ++ [.measureAll]) := by
  unfold runText
  cases hc : circuitFromQasm (R := R) p.text with
  | error e => exact .inl ⟨e, rfl⟩
  | ok c =>
    obtain ⟨c0, h0, rfl, _⟩ := text_ok h hc
    right
    unfold script
    rw [h0]
    rfl

variable [Nontrivial R]

/-- Dimensions of at least two are a valid start. -/
theorem validStart_dims {dims : List Nat} (h2 : ∀ d ∈ dims, 2 ≤ d) : ValidStart (dims.map Int.ofNat) [] := by
  refine ⟨?_, by simp, by simp⟩
  intro d hd
  obtain ⟨n, hn, rfl⟩ := List.mem_map.1 hd
  have := h2 n hn
  simp
  omega

/-- The circuit that is read from a program whose calls are all accepted. -/
theorem text_accepted {p : Program} (h : p.Ok) (hne : p.dims ≠ []) (h2 : ∀ d ∈ p.dims, 2 ≤ d)
    (ha : ∀ k ∈ p.calls (R := R), fate p.dims k ≠ .rejected ∧ fate p.dims k ≠ .odd) :
    circuitFromQasm (R := R) p.text =
      .ok ((freshCircuit (.list (p.dims.map Int.ofNat)) p.dims [] none).calls (p.calls ++ [.measureAll])) := by
  have hv := validStart_dims h2
  rw [C27_program h]
  unfold build
  rw [new_ok rfl hv none]
  apply foldlM_calls
  have hno := calls_no_measure (R := R) p
  intro pre k post hk
  have key : .measureAll ∉ pre := by
    intro hm
    rcases List.append_eq_append_iff.1 hk with ⟨a, rfl, ha⟩ | ⟨a, ha, hk'⟩
    · rcases List.mem_append.1 hm with hm | hm
      · exact hno hm
      · rcases a with _ | ⟨x, a⟩
        · cases hm
        · rw [List.cons_append] at ha
          have := (List.cons.inj ha).2
          simp at this
    · rw [ha] at hno
      exact hno (List.mem_append_left _ hm)
  have hans := answer_eq (R := R) (q := .list (p.dims.map Int.ofNat)) rfl hv none pre k
  by_cases hkm : k = .measureAll
  · subst hkm
    obtain ⟨_, hr⟩ := reach_any (R := R) (q := .list (p.dims.map Int.ofNat)) (List.length_pos_of_ne_nil hne) [] none pre
    rcases hr with ⟨_, layers, hu⟩ | ⟨hm, _⟩
    · rw [hu.measure]
      exact ⟨_, rfl⟩
    · exact absurd hm key
  · have hmem : k ∈ p.calls (R := R) := by
      have : k ∈ p.calls (R := R) ++ [.measureAll] := by rw [hk]; simp
      rcases List.mem_append.1 this with h | h
      · exact h
      · exact absurd (List.mem_singleton.1 h) hkm
    have hm : k.isMeasureAll = false := by cases k <;> first | rfl | exact absurd rfl hkm
    exact ⟨true, by rw [← hans]; exact answer_ok hne hv none key hm (ha k hmem).1 (ha k hmem).2⟩

theorem runText_accepted {p : Program} (h : p.Ok) (hne : p.dims ≠ []) (h2 : ∀ d ∈ p.dims, 2 ≤ d)
    (ha : ∀ k ∈ p.calls (R := R), fate p.dims k ≠ .rejected ∧ fate p.dims k ≠ .odd) (N : Numerics R) (B : Backend R) :
    runText N B p.text = script N B (.list (p.dims.map Int.ofNat)) [] none (p.calls ++ [.measureAll]) := by
  have hv := validStart_dims h2
  unfold runText
  rw [text_accepted h hne h2 ha]
  unfold script
  rw [new_ok rfl hv none]
  rfl

/-- **C27**, executed: on registers of at least two levels and with valid calls, reading the program and
running the circuit returns the non-zero amplitudes of the state after the calls, in the order of the lines. -/
theorem C27_run {N : Numerics R} (hN : N.Sized) {B : Backend R} (hB : B.Lawful) {p : Program} (h : p.Ok)
    (hne : p.dims ≠ []) (h2 : ∀ d ∈ p.dims, 2 ≤ d) (hv : ∀ k ∈ p.calls (R := R), k.Valid p.dims) :
    runText N B p.text =
      .ok (shown p.dims (p.calls.foldl (fun ψ k => meaning N p.dims k ψ) (basis (p.dims.map fun _ => 0)))) := by
  rw [runText_accepted h hne h2 (fun k hk => by rw [(hv k hk).applied h2]; simp),
    C01_run_sequential hN hB hne (validStart_dims h2) hv]
  congr 3
  unfold startLevels
  congr 1
  apply List.ext_getElem <;> simp

omit [Nontrivial R] in
/-- A rejected call raises after every history. -/
theorem answer_rejected {dims : List Nat} (hne : dims ≠ []) (h2 : ∀ d ∈ dims, 2 ≤ d) (pre : List (Call R)) {k : Call R}
    (hr : fate dims k = .rejected) : ∃ e, answer (.list (dims.map Int.ofNat)) [] none pre k = .error e := by
  have hv := validStart_dims h2
  rw [answer_eq rfl hv]
  obtain ⟨⟨f, hf⟩, _⟩ := reach_any (R := R) (q := .list (dims.map Int.ofNat)) (List.length_pos_of_ne_nil hne) [] none pre
  obtain ⟨e, he⟩ := rejected_raises (c := (freshCircuit (R := R) (.list (dims.map Int.ofNat)) dims [] none).calls pre)
    (dims := dims) (k := k) (by rw [hf]; rfl) (by rw [hf]; rfl) (fun _ => by rw [hf]; exact list_toRegs dims) hr
  refine ⟨e, ?_⟩
  unfold Circuit.call
  rw [he]

omit [Nontrivial R] in
/-- **C27.** A line for a single register or a Toffoli that names a register which is not declared: the reader
raises. (A `CX` or `CNOT` line never raises; see C19.) -/
theorem C27_missing_register {p : Program} (h : p.Ok) (hne : p.declared ≠ []) {i : Instr} (hi : i ∈ p.instrs)
    {k : Call R} (hk : i.call = some k) (hcx : ∀ c t x, k ≠ .cx c t x) (hq : ∃ q ∈ k.regs, (p.declared.length : Int) ≤ q) :
    ∃ e, circuitFromQasm (R := R) p.text = .error e := by
  have hl : p.dims.length = p.declared.length := by simp [Program.dims]
  rw [← hl] at hq
  have hne : p.dims ≠ [] := by
    intro e
    rw [e] at hl
    exact hne (List.length_eq_zero_iff.1 hl.symm)
  cases hc : circuitFromQasm (R := R) p.text with
  | error e => exact ⟨e, rfl⟩
  | ok c =>
    obtain ⟨c0, h0, _, ha⟩ := text_ok h hc
    have h2 : ∀ d ∈ p.dims, 2 ≤ d := by
      have := ((C20_constructor_accepts (R := R) _ _ _).1 ⟨c0, h0⟩).1
      intro d hd
      have := this (Int.ofNat d) (List.mem_map.2 ⟨d, hd, rfl⟩)
      simp at this
      omega
    have hmem : k ∈ p.calls (R := R) := List.mem_filterMap.2 ⟨i, hi, hk⟩
    obtain ⟨pre, post, hpp⟩ := List.append_of_mem hmem
    obtain ⟨b, hb⟩ := ha pre k post hpp
    have hr : fate p.dims k = .rejected := by
      obtain ⟨q, hqm, hq⟩ := hq
      cases i with
      | x r =>
        cases hk
        simp only [Call.regs, List.mem_singleton] at hqm
        subst hqm
        simp only [fate, fateOne]
        rw [if_pos (.inr hq)]
      | xPlus r x =>
        cases hk
        simp only [Call.regs, List.mem_singleton] at hqm
        subst hqm
        simp only [fate, fateOne]
        rw [if_pos (.inr hq)]
      | rx r =>
        cases hk
        simp only [Call.regs, List.mem_singleton] at hqm
        subst hqm
        simp only [fate, fateOne]
        rw [if_pos (.inr hq)]
      | h r =>
        cases hk
        simp only [Call.regs, List.mem_singleton] at hqm
        subst hqm
        simp only [fate, fateOne]
        rw [if_pos (.inr hq)]
      | z r =>
        cases hk
        simp only [Call.regs, List.mem_singleton] at hqm
        subst hqm
        simp only [fate, fateOne]
        rw [if_pos (.inr hq)]
      | cx c t => cases hk; exact absurd rfl (hcx _ _ _)
      | cxPlus c t x => cases hk; exact absurd rfl (hcx _ _ _)
      | cnot c t => cases hk; exact absurd rfl (hcx _ _ _)
      | toffoli a b c =>
        cases hk
        simp only [fate]
        rw [if_pos ⟨q, hqm, .inr hq⟩]
      | note l => cases hk
    obtain ⟨e, he⟩ := answer_rejected hne h2 pre hr
    rw [he] at hb
    cases hb

end

/-- Increments on a program of a qutrit and a qubit, executed: from `|00>` to `|21>`. -/
def runSample : Program where
  first := []
  more := []
  word := .qudit
  count := 2
  blanks := 3
  decls := [.qudit 7 3, .qubit 9]
  instrs := [.xPlus 0 (-1), .note (lit "h x0"), .cx 0 1]
  tail := lit "junk"

theorem runSample_ok : runSample.Ok := ok_of (by decide +kernel)

theorem runSample_valid : ∀ k ∈ runSample.calls (R := ℤ), k.Valid runSample.dims := by
  intro k hk
  have : k ∈ [.x 0 none (-1), .cx 0 1 1] := hk
  have hd : runSample.dims = [3, 2] := rfl
  simp only [List.mem_cons, List.not_mem_nil, or_false] at this
  rw [hd]
  rcases this with rfl | rfl <;> simp [Call.Valid, InRange, DimOK]

example {B : Backend ℤ} (hB : B.Lawful) : runText sampleN B runSample.text = .ok (shown [3, 2]
    (meaning sampleN [3, 2] (.cx 0 1 1) (meaning sampleN [3, 2] (.x 0 none (-1)) (basis [0, 0])))) :=
  C27_run sampleN_sized hB runSample_ok (by decide) (by decide) runSample_valid

/-- A missing register. -/
example {R : Type} [CommRing R] [StarRing R] [DecidableEq R] [UnitaryCheck R] :
    ∃ e, circuitFromQasm (R := R) { runSample with instrs := [.x 0, .h 2] }.text = .error e :=
  C27_missing_register (p := { runSample with instrs := [.x 0, .h 2] }) (ok_of (by decide +kernel)) (by decide)
    (i := .h 2) (by simp) rfl (by simp) ⟨2, by simp [Call.regs], by decide⟩

/-! ### C28 -/

/-- **C28.** A line of the gate section that begins with no gate name changes nothing: not the circuit, and not
whether and what the reader raises. The other lines of the text need not be well-formed. -/
theorem C28_ignored_line {R : Type} [CommRing R] {p : Layout} (h : p.Ok) {g1 g2 : List Text} {l : Text}
    (hg : p.gates = g1 ++ l :: g2) (hl : Ignored l) :
    circuitFromQasm (R := R) p.text = circuitFromQasm { p with gates := g1 ++ g2 }.text := by
  have h' : ({ p with gates := g1 ++ g2 } : Layout).Ok :=
    ⟨h.first, h.more, h.decls, fun m hm => h.gates m (by
      rw [hg]
      rcases List.mem_append.1 hm with hm | hm
      · simp [hm]
      · simp [hm])⟩
  unfold circuitFromQasm
  rw [sections_text h, sections_text h']
  show fromSections _ (below (p.gates.map dots)) = fromSections _ (below ((g1 ++ g2).map dots))
  have hi := dots_ignored hl
  rw [hg, List.map_append, List.map_append, List.map_cons]
  have hline : ∀ m ∈ p.gates, '\n' ∉ dots m := fun m hm => (dots_line (h.gates m hm)).one
  apply fromSections_skip
  · intro m hm
    obtain ⟨m', hm', rfl⟩ := List.mem_map.1 hm
    exact hline m' (by rw [hg]; simp [hm'])
  · exact hline l (by rw [hg]; simp)
  · intro m hm
    obtain ⟨m', hm', rfl⟩ := List.mem_map.1 hm
    exact hline m' (by rw [hg]; simp [hm'])
  · exact hi.1 "Toffoli" (by simp)
  · exact lineCall_ignored hi

/-- A rotation by another angle, in a text with a malformed line. -/
example {R : Type} [CommRing R] (first tail : Text) (hf : '\n' ∉ first) :
    circuitFromQasm (R := R)
      ({ first := first, more := [], word := .qubit, count := 1, blanks := 0, decls := [lit "qubit x0"],
         gates := [lit "X", lit "RX x0 90", lit "H x0"], tail := tail } : Layout).text =
    circuitFromQasm
      ({ first := first, more := [], word := .qubit, count := 1, blanks := 0, decls := [lit "qubit x0"],
         gates := [lit "X", lit "H x0"], tail := tail } : Layout).text := by
  refine C28_ignored_line (g1 := [lit "X"]) (g2 := [lit "H x0"]) ⟨hf, by simp, ?_, ?_⟩ rfl (ignored_of (by decide))
  · intro l hl
    rw [List.mem_singleton] at hl
    subst hl
    exact ⟨by decide, by decide⟩
  · intro l hl
    simp only [List.mem_cons, List.not_mem_nil, or_false] at hl
    rcases hl with rfl | rfl | rfl <;> exact ⟨by decide, by decide⟩

/-! ### C29 -/

/-- **C29.** The circuit has the declared registers, with one level more exactly for those that some Toffoli line
names in the middle. -/
theorem C29_dims {R : Type} [CommRing R] {p : Program} (h : p.Ok) (hne : p.declared ≠ []) {c : Circuit R}
    (hc : circuitFromQasm p.text = .ok c) :
    ∃ dims, c.qregs = .list dims ∧ dims.length = p.declared.length ∧
      ∀ i (h1 : i < dims.length) (h2 : i < p.declared.length),
        ((∃ a t, Instr.toffoli a i t ∈ p.instrs) → dims[i] = p.declared[i] + 1) ∧
        ((∀ a t, Instr.toffoli a i t ∉ p.instrs) → dims[i] = p.declared[i]) := by
  obtain ⟨c0, h0, rfl, _⟩ := text_ok h hc
  have hl : p.dims.length = p.declared.length := by simp [Program.dims]
  have hpos : 0 < p.dims.length := by rw [hl]; exact List.length_pos_of_ne_nil hne
  refine ⟨p.dims, ?_, hl, ?_⟩
  · obtain ⟨dims, hd, hv, rfl⟩ := new_fresh h0
    obtain rfl : p.dims = dims := List.map_injective_iff.2 (fun a b e => by simpa using e) hd
    obtain ⟨⟨f, hf⟩, _⟩ := reach_any (R := R) (q := .list (p.dims.map Int.ofNat)) hpos [] none (p.calls ++ [.measureAll])
    rw [hf]
    show Regs.list _ = _
    congr 1
    simp [Function.comp_def]
  · intro i h1 h2
    have e : p.dims[i] = if i ∈ p.instrs.filterMap Instr.middle then p.declared[i] + 1 else p.declared[i] := by
      simp [Program.dims]
    constructor
    · rintro ⟨a, t, hm⟩
      have : i ∈ p.instrs.filterMap Instr.middle := List.mem_filterMap.2 ⟨_, hm, rfl⟩
      rw [e, if_pos this]
    · intro hno
      rw [e, if_neg]
      intro hm
      obtain ⟨j, hj, hji⟩ := List.mem_filterMap.1 hm
      cases j with
      | toffoli a b t => cases hji; exact hno a t hj
      | _ => cases hji

/-- Two Toffoli lines with the same middle register. -/
example {R : Type} [CommRing R] {c : Circuit R}
    (hc : circuitFromQasm { sample with instrs := [.toffoli 0 1 2, .toffoli 3 1 2] }.text = .ok c) :
    ∃ dims, c.qregs = .list dims ∧ dims.length = 4 ∧ ∀ i (h1 : i < dims.length) (h2 : i < 4),
      ((∃ a t, Instr.toffoli a i t ∈ [.toffoli 0 1 2, .toffoli 3 1 2]) → dims[i] = [5, 2, 3, 12][i] + 1) ∧
      ((∀ a t, Instr.toffoli a i t ∉ [.toffoli 0 1 2, .toffoli 3 1 2]) → dims[i] = [5, 2, 3, 12][i]) :=
  C29_dims (p := { sample with instrs := [.toffoli 0 1 2, .toffoli 3 1 2] }) (ok_of (by decide +kernel)) (by decide) hc

section
variable {R : Type} [CommRing R] [StarRing R] [DecidableEq R] [UnitaryCheck R] [Nontrivial R]

/-- **C29.** A Toffoli line at the end of a program changes no amplitude of a basis state whose middle register is on a
declared level: it acts only when the middle register is on the level that was added. -/
theorem C29_toffoli_line {N : Numerics R} (hN : N.Sized) {B : Backend R} (hB : B.Lawful) {p : Program} (h : p.Ok)
    (h2 : ∀ d ∈ p.declared, 2 ≤ d) {pre : List Instr} {a b t : Nat} (hp : p.instrs = pre ++ [.toffoli a b t])
    (hv : ∀ k ∈ p.calls (R := R), k.Valid p.dims) (hb : b < p.declared.length) :
    ∃ ψ ψ' : State R,
      script N B (.list (p.dims.map Int.ofNat)) [] none (pre.filterMap Instr.call ++ [.measureAll]) = .ok (shown p.dims ψ) ∧
      runText N B p.text = .ok (shown p.dims ψ') ∧
      ∀ s, Fits p.dims s → (s.getD b 0 < p.declared[b] → ψ' s = ψ s) ∧
        (s.getD b 0 = p.declared[b] → atTop p.dims a s → ψ' (bump p.dims t 1 s) = ψ s) := by
  have hl : p.dims.length = p.declared.length := by simp [Program.dims]
  have hne : p.dims ≠ [] := by
    intro e
    rw [e] at hl
    simp only [List.length_nil] at hl
    omega
  have hd2 : ∀ d ∈ p.dims, 2 ≤ d := by
    intro d hd
    obtain ⟨i, hi, rfl⟩ := List.mem_iff_getElem.1 hd
    have hi' : i < p.declared.length := by omega
    have := h2 p.declared[i] (List.getElem_mem hi')
    simp only [Program.dims, List.getElem_map, List.getElem_zipIdx]
    split <;> omega
  have hdb : p.dims.getD b 0 = p.declared[b] + 1 := by
    have : b < p.dims.length := by omega
    rw [List.getD_eq_getElem?_getD, List.getElem?_eq_getElem this, Option.getD_some]
    simp only [Program.dims, List.getElem_map, List.getElem_zipIdx, Nat.zero_add]
    rw [if_pos]
    exact List.mem_filterMap.2 ⟨.toffoli a b t, by rw [hp]; simp, rfl⟩
  have hcalls : p.calls (R := R) = pre.filterMap Instr.call ++ [.toffoli [(a : Int), b] t 1] := by
    unfold Program.calls
    rw [hp, List.filterMap_append]
    rfl
  have hvpre : ∀ k ∈ pre.filterMap (Instr.call (R := R)), k.Valid p.dims := fun k hk => hv k (by rw [hcalls]; simp [hk])
  have hvt : (Call.toffoli [(a : Int), b] t 1 : Call R).Valid p.dims := hv _ (by rw [hcalls]; simp)
  have hta : t < p.dims.length := by have := hvt.1.2; omega
  have hmem : t ∉ [a, b] := by
    intro hm
    apply hvt.2.2.1
    simp only [List.mem_cons, List.not_mem_nil, or_false] at hm ⊢
    rcases hm with rfl | rfl
    · exact .inl rfl
    · exact .inr rfl
  have hstart := validStart_dims hd2
  have hrun := C27_run hN hB h hne hd2 hv
  rw [hcalls, List.foldl_append] at hrun
  set ψ := (pre.filterMap (Instr.call (R := R))).foldl (fun ψ k => meaning N p.dims k ψ) (basis (p.dims.map fun _ => 0)) with hψ
  refine ⟨ψ, _, ?_, hrun, ?_⟩
  · rw [C01_run_sequential hN hB hne hstart hvpre]
    congr 2
    rw [hψ]
    congr 2
    unfold startLevels
    apply List.ext_getElem <;> simp
  · intro s hs
    have key := move_controlled_spec hta hmem 1 ψ hs
    constructor
    · intro hlt
      exact key.2 ⟨b, by simp, by rw [hdb]; omega⟩
    · intro he hat
      have := key.1 (by
        intro c hc
        simp only [List.mem_cons, List.not_mem_nil, or_false] at hc
        rcases hc with rfl | rfl
        · exact hat
        · rw [hdb, he])
      have hdt : p.dims.getD t 0 = p.dims[t] := by
        rw [List.getD_eq_getElem?_getD, List.getElem?_eq_getElem hta, Option.getD_some]
      simp only [bump, hdt]
      exact this

/-- The level lists that `X` lines on different registers prepare. -/
def ones (n : Nat) (qs : List Nat) : List Nat := (List.range n).map fun i => if i ∈ qs then 1 else 0

/-- **C29.** A program that sets any registers to 1 with `X` lines and then has Toffoli lines on three different
registers each: every register is left as the `X` lines set it, whether or not all controls are 1. -/
theorem C29_toffolis_do_nothing {N : Numerics R} (hN : N.Sized) {B : Backend R} (hB : B.Lawful) {p : Program} (h : p.Ok)
    (hne : p.declared ≠ []) (h2 : ∀ d ∈ p.declared, 2 ≤ d) {qs : List Nat} (hqs : qs.Nodup)
    (hq : ∀ q ∈ qs, q < p.declared.length) {ts : List (Nat × Nat × Nat)}
    (hts : ∀ x ∈ ts, x.1 < p.declared.length ∧ x.2.1 < p.declared.length ∧ x.2.2 < p.declared.length ∧
      x.1 ≠ x.2.1 ∧ x.1 ≠ x.2.2 ∧ x.2.1 ≠ x.2.2)
    (hp : p.instrs = qs.map .x ++ ts.map fun x => .toffoli x.1 x.2.1 x.2.2) :
    runText N B p.text = .ok [(.str (label (ones p.declared.length qs)), 1)] := by
  have hl : p.dims.length = p.declared.length := by simp [Program.dims]
  have hne' : p.dims ≠ [] := by
    intro e
    rw [e] at hl
    exact hne (List.length_eq_zero_iff.1 hl.symm)
  have hdi : ∀ i (hi : i < p.declared.length), p.dims.getD i 0 = if i ∈ p.instrs.filterMap Instr.middle then p.declared[i] + 1
      else p.declared[i] := by
    intro i hi
    rw [List.getD_eq_getElem?_getD, List.getElem?_eq_getElem (by omega), Option.getD_some]
    simp [Program.dims]
  have hd2 : ∀ d ∈ p.dims, 2 ≤ d := by
    intro d hd
    obtain ⟨i, hi, rfl⟩ := List.mem_iff_getElem.1 hd
    have hi' : i < p.declared.length := by omega
    have := h2 p.declared[i] (List.getElem_mem hi')
    simp only [Program.dims, List.getElem_map, List.getElem_zipIdx]
    split <;> omega
  have hget : ∀ i, i < p.declared.length → 2 ≤ p.dims.getD i 0 := by
    intro i hi
    have := h2 p.declared[i] (List.getElem_mem hi)
    rw [hdi i hi]
    split <;> omega
  have hcalls : p.calls (R := R) = qs.map (fun q : Nat => Call.x (q : Int) none 1) ++
      ts.map fun x => Call.toffoli [(x.1 : Int), (x.2.1 : Int)] x.2.2 1 := by
    unfold Program.calls
    rw [hp, List.filterMap_append, List.filterMap_map, List.filterMap_map]
    congr 1
    · rw [← List.filterMap_eq_map]; rfl
    · rw [← List.filterMap_eq_map]; rfl
  have hv : ∀ k ∈ p.calls (R := R), k.Valid p.dims := by
    intro k hk
    rw [hcalls] at hk
    rcases List.mem_append.1 hk with hk | hk
    · obtain ⟨q, hqm, rfl⟩ := List.mem_map.1 hk
      have := hq q hqm
      have := hget q this
      refine ⟨⟨by omega, by omega⟩, .inl rfl, ?_, ?_⟩ <;> rw [Int.toNat_natCast] <;> omega
    · obtain ⟨x, hx, rfl⟩ := List.mem_map.1 hk
      obtain ⟨a1, a2, a3, a4, a5, a6⟩ := hts x hx
      refine ⟨⟨by omega, by omega⟩, ?_, ?_, ?_⟩
      · intro c hc
        simp only [List.mem_cons, List.not_mem_nil, or_false] at hc
        rcases hc with rfl | rfl <;> exact ⟨by omega, by omega⟩
      · simp only [List.mem_cons, List.not_mem_nil, or_false, not_or]
        omega
      · simp only [spanOf, List.cons_append, List.nil_append, List.headD_cons, List.foldl_cons, List.foldl_nil]
        omega
  rw [runText_accepted h hne' hd2 (fun k hk => by rw [(hv k hk).applied hd2]; simp),
    C02_classical_single_outcome hN hB hne' (validStart_dims hd2) hv (by
      intro k hk
      rw [hcalls] at hk
      rcases List.mem_append.1 hk with hk | hk
      · obtain ⟨q, _, rfl⟩ := List.mem_map.1 hk
        trivial
      · obtain ⟨x, _, rfl⟩ := List.mem_map.1 hk
        trivial)]
  congr 4
  rw [hcalls, List.foldl_append, List.foldl_map, List.foldl_map]
  have hstart : startLevels p.dims [] = ones p.declared.length [] := by
    unfold startLevels ones
    apply List.ext_getElem <;> simp [hl]
  rw [hstart]
  have hones : ∀ (done qs : List Nat), (∀ q ∈ qs, q < p.declared.length) → (done ++ qs).Nodup →
      qs.foldl (fun (s : List Nat) (q : Nat) => classicalStep (R := R) p.dims (.x (q : Int) none 1) s) (ones p.declared.length done) =
        ones p.declared.length (done ++ qs) := by
    intro done qs
    induction qs generalizing done with
    | nil => intro _ _; simp
    | cons q qs ih =>
      intro hq hnd
      have hqn := hq q (by simp)
      have hqd : q ∉ done := by
        intro hm
        rw [List.nodup_append] at hnd
        exact hnd.2.2 q hm q (by simp) rfl
      have hstep : classicalStep (R := R) p.dims (.x (q : Int) none 1) (ones p.declared.length done) =
          ones p.declared.length (done ++ [q]) := by
        have h0 : (ones p.declared.length done).getD q 0 = 0 := by
          rw [List.getD_eq_getElem?_getD, List.getElem?_eq_getElem (by simp [ones, hqn]), Option.getD_some]
          simp [ones, hqd]
        have hd := hget q hqn
        show (ones p.declared.length done).set (q : Int).toNat _ = _
        rw [Int.toNat_natCast, h0, Int.emod_eq_of_lt (by omega) (by omega)]
        apply List.ext_getElem
        · simp [ones]
        · intro i h1 h2
          rw [List.getElem_set]
          simp only [ones, List.getElem_map, List.getElem_range, List.mem_append, List.mem_singleton]
          by_cases hqi : q = i
          · subst hqi
            simp
          · rw [if_neg hqi]
            simp [Ne.symm hqi]
      rw [List.foldl_cons, hstep, ih (done ++ [q]) (fun q hq' => hq q (by simp [hq'])) (by simpa using hnd)]
      simp
  have := hones [] qs hq (by simpa using hqs)
  rw [List.nil_append] at this
  rw [this]
  have htof : ∀ x ∈ ts, classicalStep (R := R) p.dims (.toffoli [(x.1 : Int), (x.2.1 : Int)] x.2.2 1)
      (ones p.declared.length qs) = ones p.declared.length qs := by
    intro x hx
    obtain ⟨a1, a2, a3, a4, a5, a6⟩ := hts x hx
    have hnot : ¬ atTop p.dims x.2.1 (ones p.declared.length qs) := by
      unfold atTop
      have hle : (ones p.declared.length qs).getD x.2.1 0 ≤ 1 := by
        rw [List.getD_eq_getElem?_getD, List.getElem?_eq_getElem (by simp [ones, a2]), Option.getD_some]
        simp only [ones, List.getElem_map]
        split <;> omega
      have := h2 p.declared[x.2.1] (List.getElem_mem a2)
      rw [hdi _ a2, if_pos]
      · omega
      · rw [List.mem_filterMap]
        refine ⟨.toffoli x.1 x.2.1 x.2.2, ?_, rfl⟩
        rw [hp]
        exact List.mem_append_right _ (List.mem_map.2 ⟨x, hx, rfl⟩)
    show controlled p.dims _ _ _ _ = _
    unfold controlled
    rw [if_neg]
    intro hc
    exact hnot (hc x.2.1 (by simp))
  clear hts hp hcalls hv
  induction ts with
  | nil => rfl
  | cons x ts ih =>
    rw [List.foldl_cons, htof x (by simp)]
    exact ih fun x hx => htof x (by simp [hx])

/-- Three qubits, both controls at 1: the target stays 0. -/
def toffoliSample : Program where
  first := lit "Toffoli"
  more := []
  word := .qubit
  count := 3
  blanks := 0
  decls := [.qubit 0, .qubit 1, .qubit 2]
  instrs := [.x 0, .x 1, .toffoli 0 1 2]
  tail := []

theorem toffoliSample_ok : toffoliSample.Ok := ok_of (by decide +kernel)

example {B : Backend ℤ} (hB : B.Lawful) :
    runText sampleN B (lit "Toffoli\n.qubit 3\nqubit x0\nqubit x1\nqubit x2\n.begin\nX x0\nX x1\nToffoli x0, x1, x2\n.end") =
      .ok [(.str "|110>".toList, 1)] := by
  have e : toffoliSample.text =
      lit "Toffoli\n.qubit 3\nqubit x0\nqubit x1\nqubit x2\n.begin\nX x0\nX x1\nToffoli x0, x1, x2\n.end" := by decide +kernel
  rw [← e]
  exact C29_toffolis_do_nothing sampleN_sized hB toffoliSample_ok (by decide) (by decide) (qs := [0, 1]) (by simp) (by decide)
    (ts := [(0, 1, 2)]) (by decide) rfl

example {B : Backend ℤ} (hB : B.Lawful) : ∃ ψ ψ' : State ℤ,
    script sampleN B (.list [2, 3, 2]) [] none ([.x 0 none 1, .x 1 none 1] ++ [.measureAll]) = .ok (shown [2, 3, 2] ψ) ∧
    runText sampleN B toffoliSample.text = .ok (shown [2, 3, 2] ψ') ∧
    ∀ s, Fits [2, 3, 2] s → (s.getD 1 0 < 2 → ψ' s = ψ s) ∧
      (s.getD 1 0 = 2 → atTop [2, 3, 2] 0 s → ψ' (bump [2, 3, 2] 2 1 s) = ψ s) :=
  C29_toffoli_line sampleN_sized hB toffoliSample_ok (by decide) (pre := [.x 0, .x 1]) (a := 0) (b := 1) (t := 2) rfl
    (by
      intro k hk
      have : k ∈ [.x 0 none 1, .x 1 none 1, Call.toffoli [0, 1] 2 1] := hk
      simp only [List.mem_cons, List.not_mem_nil, or_false] at this
      have hd : toffoliSample.dims = [2, 3, 2] := rfl
      rw [hd]
      rcases this with rfl | rfl | rfl <;> simp [Call.Valid, InRange, DimOK, spanOf])
    (by decide)

end

/-! ### C30 -/

/-- **C30.** A text with fewer than three section markers at beginnings of lines other than the first is an
`IndexError`. -/
theorem C30_missing_markers {R : Type} [CommRing R] {t : Text} (h : markers t < 3) :
    circuitFromQasm (R := R) t = .error .index := by
  unfold circuitFromQasm
  rw [sections_few h]
  rfl

/-- **C30.** In particular a text in which no line but the first begins with a dot, such as an indented program. -/
theorem C30_no_line_starts_with_dot {R : Type} [CommRing R] {t : Text} (h : ¬ lit "\n." <:+: t) :
    circuitFromQasm (R := R) t = .error .index := by
  apply C30_missing_markers
  have : markers t = 0 := by
    unfold markers
    rw [List.countP_eq_zero]
    intro s hs hstart
    rw [List.mem_tails] at hs
    have key : ∀ w : Text, ('\n' :: '.' :: w).isPrefixOf s = true → False := by
      intro w hw
      rw [List.isPrefixOf_iff_prefix] at hw
      apply h
      refine List.IsInfix.trans ?_ hs.isInfix
      refine List.IsInfix.trans ?_ hw.isInfix
      exact List.IsPrefix.isInfix ⟨w, rfl⟩
    simp only [startsSection, blankNumAfter, numAfter, Bool.or_eq_true, Bool.and_eq_true] at hstart
    rcases hstart with (((hh | hh) | hh) | hh) | hh
    · exact key _ hh.1
    · exact key _ hh.1
    · exact key _ hh.1
    · exact key _ hh
    · exact key _ hh
  omega

/-- **C30**, the converse: with three markers or more the text is cut into its sections, so that what the reader
returns or raises comes from the sections. -/
theorem C30_enough_markers {R : Type} [CommRing R] {t : Text} (h : 3 ≤ markers t) :
    ∃ decls gates, circuitFromQasm (R := R) t = fromSections decls gates := by
  obtain ⟨r, hr⟩ := sections_many h
  refine ⟨r.1, r.2, ?_⟩
  unfold circuitFromQasm
  rw [hr]
  rfl

/-- No header line. -/
example {R : Type} [CommRing R] :
    circuitFromQasm (R := R) (lit ".qudit 1\nqudit x0 (3)\n.begin\nX x0\n.end\n") = .error .index :=
  C30_missing_markers (by decide +kernel)

/-- No end. -/
example {R : Type} [CommRing R] :
    circuitFromQasm (R := R) (lit "header\n.qudit 1\nqudit x0 (3)\n.begin\nX x0\n") = .error .index :=
  C30_missing_markers (by decide +kernel)

example : markers (lit "header\n.qudit 1\nqudit x0 (3)\n.begin\nX x0\n") = 2 := by decide +kernel

/-- Indented, like the example in README.md. -/
example {R : Type} [CommRing R] :
    circuitFromQasm (R := R) (lit "\n  header\n  .qudit 1\n  qudit x0 (3)\n  .begin\n  X x0\n  .end\n") = .error .index :=
  C30_no_line_starts_with_dot (by decide +kernel)

/-! ### C31 -/

section
variable {R : Type} [CommRing R] [StarRing R] [DecidableEq R] [UnitaryCheck R] [Nontrivial R]

/-- **C31.** A program with a line `RX xq 180` cannot be run if register `q` of the circuit has at most 180 levels:
reading it, or `run()`, raises. -/
theorem C31_rx_never_runs {N : Numerics R} (hN : N.Sized) {B : Backend R} (hB : B.Lawful) {p : Program} (h : p.Ok)
    (hne : p.declared ≠ []) {q : Nat} (hi : Instr.rx q ∈ p.instrs) (hd : p.dims.getD q 0 ≤ 180) :
    ∃ e, runText N B p.text = .error e := by
  have hl : p.dims.length = p.declared.length := by simp [Program.dims]
  have hne' : p.dims ≠ [] := by
    intro e
    rw [e] at hl
    exact hne (List.length_eq_zero_iff.1 hl.symm)
  rcases runText_cases h N B with he | he
  · exact he
  by_cases hq : q < p.dims.length
  · by_cases h2 : ∀ d ∈ p.dims, 2 ≤ d
    · rw [he]
      have hmem : (.x q none 180 : Call R) ∈ p.calls := List.mem_filterMap.2 ⟨_, hi, rfl⟩
      obtain ⟨pre, post, hpp⟩ := List.append_of_mem hmem
      rw [hpp, List.append_assoc, List.cons_append]
      refine (C03_x_out_of_range hN hB (validStart_dims h2) none ?_ _ hq (.inr ?_)).2
      · intro hm
        exact calls_no_measure p (by rw [hpp]; simp [hm])
      · rw [List.getD_eq_getElem?_getD, List.getElem?_eq_getElem hq, Option.getD_some] at hd
        omega
    · rw [he]
      unfold script
      cases hn : Circuit.new (R := R) (.list (p.dims.map Int.ofNat)) [] none with
      | error e => exact ⟨e, rfl⟩
      | ok c0 =>
        have := ((C20_constructor_accepts (R := R) _ _ _).1 ⟨c0, hn⟩).1
        exact absurd (fun d hd => by
          have := this (Int.ofNat d) (List.mem_map.2 ⟨d, hd, rfl⟩)
          simp at this
          omega) h2
  · obtain ⟨e, hce⟩ := C27_missing_register (R := R) h hne hi rfl (fun c t x e => by cases e)
      ⟨(q : Int), by simp [Call.regs], by omega⟩
    refine ⟨e, ?_⟩
    unfold runText
    rw [hce]
    rfl

/-- A rotation on a qutrit among other gates. -/
def rxSample : Program where
  first := []
  more := []
  word := .qutrit
  count := 2
  blanks := 0
  decls := [.qubit 0, .qutrit 1]
  instrs := [.x 0, .rx 1, .cx 0 1]
  tail := []

theorem rxSample_ok : rxSample.Ok := ok_of (by decide +kernel)

example {B : Backend ℤ} (hB : B.Lawful) : ∃ e, runText sampleN B rxSample.text = .error e :=
  C31_rx_never_runs sampleN_sized hB rxSample_ok (by decide) (q := 1) (by simp [rxSample]) (by decide)

/-- **C31.** The line is `x` with the increment 180. -/
theorem C31_rx_is_x {p : Program} (h : p.Ok) (pre post : List Instr) (q : Nat) (hp : p.instrs = pre ++ .rx q :: post) :
    circuitFromQasm (R := R) p.text =
      build p.dims (pre.filterMap Instr.call ++ .x q none 180 :: post.filterMap Instr.call) := by
  rw [C27_program h]
  congr 1
  unfold Program.calls
  rw [hp, List.filterMap_append, List.filterMap_cons]
  rfl

example : circuitFromQasm (R := R) rxSample.text = build [2, 3] [.x 0 none 1, .x 1 none 180, .cx 0 1 1] :=
  C31_rx_is_x rxSample_ok [.x 0] [.cx 0 1] 1 rfl

/-- **C31.** A line that begins with `RX` and does not end with `180` is dropped. -/
theorem C31_other_angles_dropped {p : Layout} (h : p.Ok) {g1 g2 : List Text} {r : Text}
    (hg : p.gates = g1 ++ (lit "RX" ++ r) :: g2) (hr : ¬ lit "180" <:+ (lit "RX" ++ r)) :
    circuitFromQasm (R := R) p.text = circuitFromQasm { p with gates := g1 ++ g2 }.text := by
  refine C28_ignored_line h hg ⟨?_, fun hc => hr hc.2⟩
  intro w hw hpre
  obtain ⟨u, hu⟩ := hpre
  simp only [List.mem_cons, List.not_mem_nil, or_false] at hw
  rcases hw with rfl | rfl | rfl | rfl | rfl | rfl <;> cases (List.cons.inj hu).1

example : circuitFromQasm (R := R)
      ({ first := [], more := [], word := .qutrit, count := 1, blanks := 0, decls := [lit "qutrit x0"],
         gates := [lit "RX x0 90", lit "H x0"], tail := [] } : Layout).text =
    circuitFromQasm
      ({ first := [], more := [], word := .qutrit, count := 1, blanks := 0, decls := [lit "qutrit x0"],
         gates := [lit "H x0"], tail := [] } : Layout).text := by
  refine C31_other_angles_dropped (g1 := []) (g2 := [lit "H x0"]) (r := lit " x0 90") ⟨by simp, by simp, ?_, ?_⟩ rfl (by decide)
  · exact fun l hl => line_of (List.all_eq_true.1 (by decide : [lit "qutrit x0"].all lineCheck = true) l hl)
  · exact fun l hl => line_of (List.all_eq_true.1 (by decide : [lit "RX x0 90", lit "H x0"].all lineCheck = true) l hl)

end

end Qasm

end QuDiet
