import Verif.Lemmas.Script
import Verif.Props.Sequential
import Verif.Props.Codec

/-! # Construction

C20: which registers and initial levels the constructor accepts, which exception it raises for the
others, and which state it prepares. C21: the pair form of the registers. -/

namespace QuDiet

open Spec

variable {R : Type} [CommRing R]

/-! ### The first exception of a loop -/

/-- The exception that a Python expression raises, if any. -/
def raised {α : Type} : PyM α → Option Err
  | .error e => some e
  | .ok _ => none

theorem mapM_raised {α β : Type} (l : List α) (f : α → PyM β) :
    raised (l.mapM f) = l.findSome? fun a => raised (f a) := by
  induction l with
  | nil => rfl
  | cons a l ih =>
    rw [List.mapM_cons, List.findSome?_cons]
    cases hb : f a with
    | error e => rfl
    | ok y =>
      change _ = l.findSome? fun a => raised (f a)
      rw [← ih]
      cases l.mapM f <;> rfl

/-! ### C20 -/

/-- What is wrong with initial level number `i`, for registers of dimensions `ds` and the list `init`
of initial levels (0 for the registers that it leaves out). -/
def levelProblem (ds init : List Int) (i : Nat) : Option Err :=
  match ds[i]? with
  | none => some .index
  | some d =>
    let s := init.getD i 0
    if d < 2 ∨ d < s then some .value
    else if s = d ∨ s < -d then some .index
    else none

theorem raised_initState (d s : Int) (i : Nat) :
    raised (initState (R := R) d s i) =
      if d < 2 ∨ d < s then some .value else if s = d ∨ s < -d then some .index else none := by
  unfold initState
  by_cases h : d < s ∨ d < 2
  · rw [if_pos h, if_pos (Or.symm h)]; rfl
  · rw [if_neg h, if_neg (fun x => h (Or.symm x))]
    by_cases h1 : s = d ∨ s < -d
    · rw [if_pos h1, pyIndex_error (by omega)]; rfl
    · rw [if_neg h1, pyIndex_ok (by omega) (by omega)]; rfl

theorem raised_initMoment (ds init : List Int) :
    raised (initMoment (R := R) ds (extendStates ds.length init)) =
      (List.range (max ds.length init.length)).findSome? (levelProblem ds init) := by
  unfold initMoment
  rw [mapM_raised]
  have e : (extendStates ds.length init).zipIdx =
      (List.range (max ds.length init.length)).map fun i => (init.getD i 0, i) := by
    apply List.ext_getElem
    · simp [extendStates]; omega
    · intro i h1 h2
      have hi : i < (extendStates ds.length init).length := by simpa using h1
      have := getD_extend ds.length init i
      rw [List.getD_eq_getElem?_getD, List.getElem?_eq_getElem hi, Option.getD_some] at this
      simp [this]
  rw [e, List.findSome?_map]
  congr 1
  funext i
  simp only [Function.comp, levelProblem]
  cases ds[i]? with
  | none => rfl
  | some d => exact raised_initState d _ i

theorem raised_new (q : RegsArg) (init : List Int) (out : Option Output) :
    raised (Circuit.new (R := R) q init out) =
      raised (initMoment (R := R) q.dims (extendStates q.dims.length init)) := by
  unfold Circuit.new
  simp only [bind, Except.bind]
  cases hm : initMoment (R := R) q.dims (extendStates q.dims.length init) with
  | error e => rfl
  | ok m =>
    simp only [Flow.populate, List.getLast?_nil]
    rfl

/-- **C20.** The constructor looks at the initial levels in order (a level given beyond the last
register is looked at too, a register without a level starts at 0) and raises the exception of the first
level that has a problem. It raises nothing else. -/
theorem C20_constructor_raises (q : RegsArg) (init : List Int) (out : Option Output) (e : Err) :
    Circuit.new (R := R) q init out = .error e ↔
      ∃ i < max q.dims.length init.length, levelProblem q.dims init i = some e ∧
        ∀ j < i, levelProblem q.dims init j = none := by
  have h := (raised_new (R := R) q init out).trans (raised_initMoment q.dims init)
  have h1 : Circuit.new (R := R) q init out = .error e ↔ raised (Circuit.new (R := R) q init out) = some e := by
    cases Circuit.new (R := R) q init out <;> simp [raised]
  rw [h1, h]
  generalize max q.dims.length init.length = n
  induction n with
  | zero => simp
  | succ n ih =>
    rw [List.range_succ, List.findSome?_append]
    cases hf : (List.range n).findSome? (levelProblem q.dims init) with
    | some e' =>
      rw [hf] at ih
      simp only [Option.some_or]
      refine ih.trans ?_
      constructor
      · rintro ⟨i, hi, h2⟩; exact ⟨i, by omega, h2⟩
      · rintro ⟨i, hi, h2, h3⟩
        by_cases hin : i = n
        · subst hin
          exfalso
          rw [List.findSome?_eq_none_iff.2 (by simpa using h3)] at hf
          cases hf
        · exact ⟨i, by omega, h2, h3⟩
    | none =>
      rw [List.findSome?_eq_none_iff] at hf
      simp only [List.mem_range] at hf
      simp only [Option.none_or, List.findSome?_singleton]
      constructor
      · intro h2; exact ⟨n, by omega, h2, hf⟩
      · rintro ⟨i, hi, h2, h3⟩
        by_cases hin : i = n
        · subst hin; exact h2
        · rw [hf i (by omega)] at h2; cases h2

/-- **C20.** The constructor accepts exactly the registers of at least two levels with at most one
initial level per register, each between `-d` and `d - 1`. -/
theorem C20_constructor_accepts (q : RegsArg) (init : List Int) (out : Option Output) :
    (∃ c, Circuit.new (R := R) q init out = .ok c) ↔
      (∀ d ∈ q.dims, 2 ≤ d) ∧ init.length ≤ q.dims.length ∧
        ∀ i (h : i < q.dims.length) (h' : i < init.length), -q.dims[i] ≤ init[i] ∧ init[i] < q.dims[i] := by
  have h1 : (∃ c, Circuit.new (R := R) q init out = .ok c) ↔
      raised (Circuit.new (R := R) q init out) = none := by
    cases Circuit.new (R := R) q init out <;> simp [raised]
  rw [h1, raised_new, raised_initMoment, List.findSome?_eq_none_iff]
  simp only [List.mem_range]
  generalize q.dims = ds
  constructor
  · intro h
    have key : ∀ i (hi : i < ds.length), ¬ (ds[i] < 2 ∨ ds[i] < init.getD i 0) ∧
        ¬ (init.getD i 0 = ds[i] ∨ init.getD i 0 < -ds[i]) := by
      intro i hi
      have := h i (by omega)
      unfold levelProblem at this
      rw [List.getElem?_eq_getElem hi] at this
      simp only at this
      split at this
      · cases this
      · split at this
        · cases this
        · constructor <;> assumption
    refine ⟨?_, ?_, ?_⟩
    · intro d hd
      obtain ⟨i, hi, rfl⟩ := List.mem_iff_getElem.1 hd
      have := key i hi
      omega
    · by_contra hlt
      have := h ds.length (by omega)
      simp [levelProblem] at this
    · intro i hi hi'
      have := key i hi
      rw [List.getD_eq_getElem?_getD, List.getElem?_eq_getElem hi', Option.getD_some] at this
      omega
  · rintro ⟨h2, h3, h4⟩ i hi
    have hi : i < ds.length := by omega
    have hd := h2 ds[i] (List.getElem_mem hi)
    unfold levelProblem
    rw [List.getElem?_eq_getElem hi]
    simp only
    by_cases hi' : i < init.length
    · have := h4 i hi hi'
      rw [List.getD_eq_getElem?_getD, List.getElem?_eq_getElem hi', Option.getD_some, if_neg, if_neg] <;> omega
    · rw [List.getD_eq_getElem?_getD, List.getElem?_eq_none (by omega), Option.getD_none, if_neg, if_neg] <;> omega

/-- **C20.** A level list that is too long is an `IndexError` when nothing else is wrong with it. -/
theorem C20_too_many_levels (q : RegsArg) (init : List Int) (out : Option Output)
    (h2 : ∀ d ∈ q.dims, 2 ≤ d) (hlen : q.dims.length < init.length)
    (hlev : ∀ i (h : i < q.dims.length) (h' : i < init.length), -q.dims[i] ≤ init[i] ∧ init[i] < q.dims[i]) :
    Circuit.new (R := R) q init out = .error .index := by
  rw [C20_constructor_raises]
  refine ⟨q.dims.length, by omega, by simp [levelProblem], ?_⟩
  intro j hj
  have hd := h2 q.dims[j] (List.getElem_mem hj)
  have := hlev j hj (by omega)
  unfold levelProblem
  rw [List.getElem?_eq_getElem hj]
  simp only
  rw [List.getD_eq_getElem?_getD, List.getElem?_eq_getElem (by omega), Option.getD_some, if_neg, if_neg] <;> omega

section
variable [StarRing R] [DecidableEq R] [UnitaryCheck R] [Nontrivial R] {N : Numerics R} {B : Backend R}

/-- **C20.** Measured and run at once, an accepted circuit shows one basis state with amplitude 1: the
given levels, where a negative level counts from the top and a missing one is 0. -/
theorem C20_prepared_state (hN : N.Sized) (hB : B.Lawful) {dims : List Nat} (hne : dims ≠ []) {init : List Int}
    (h : ValidStart (dims.map Int.ofNat) init) :
    script N B (.list (dims.map Int.ofNat)) init none [.measureAll] =
      .ok [(.str (label ((List.range dims.length).map fun i =>
        let d : Int := dims.getD i 0
        let s := init.getD i 0
        (if s < 0 then d + s else s).toNat)), 1)] := by
  have h3 := script_valid hN hB hne h (out := none) (by simp) (ks := ([] : List (Call R))) valid_nil []
  rw [List.nil_append] at h3
  have hf : Fits dims (startLevels dims init) := (initOps_prepares N h (List.length_pos_of_ne_nil hne)).1
  have e : startLevels dims init = (List.range dims.length).map fun i =>
        let d : Int := dims.getD i 0
        let s := init.getD i 0
        (if s < 0 then d + s else s).toNat := by
    unfold startLevels
    apply List.map_congr_left
    intro i hi
    rw [List.mem_range] at hi
    obtain ⟨g1, g2, g3⟩ := validStart_getD h hi
    simp only
    congr 1
    split
    · rw [← Int.add_emod_left, Int.emod_eq_of_lt (by omega) (by omega)]
    · rw [Int.emod_eq_of_lt (by omega) (by omega)]
  rw [h3, stateAfter, List.foldl_nil, listing, outcome_basis hf, e]
  rfl

/-- The hypotheses of `C20_prepared_state`: a qubit, a qutrit and a ququart, levels 1, 2 (as -1) and 0. -/
example : script sampleN (numpyBackend ℤ) (.list [2, 3, 4]) [1, -1] none [.measureAll] =
    .ok [(.str ['|', '1', '2', '0', '>'], 1)] :=
  C20_prepared_state sampleN_sized numpy_lawful (dims := [2, 3, 4]) (by simp) (validStart_of rfl)

end

/-! ### C21 -/

/-- Is it a `toffoli` call? -/
def Call.isToffoli : Call R → Bool
  | .toffoli .. => true
  | _ => false

/-- The circuit with its registers described in another way. -/
def Circuit.described (c : Circuit R) (r : Regs) : Circuit R := { c with qregs := r }

theorem bind_map_of {α β : Type} (x : PyM α) (f g : α → PyM β) (h : β → β)
    (hfg : ∀ a, f a = (g a).map h) : (x >>= f) = (x >>= g).map h := by
  cases x with
  | error e => rfl
  | ok a => exact hfg a

theorem addMoment_described (c : Circuit R) (s : Regs) (q : RegArg) (g : GateObj R) :
    (c.described s).addMoment q g = (c.addMoment q g).map fun r => (r.1.described s, r.2) := by
  unfold Circuit.addMoment
  change (do let m ← c.momentData q g; let (f, r) ← c.flow.populate m; .ok ({ c.described s with flow := f }, r)) = _
  cases c.momentData q g with
  | error e => rfl
  | ok m =>
    change (do let (f, r) ← c.flow.populate m; .ok ({ c.described s with flow := f }, r)) = 
      (do let (f, r) ← c.flow.populate m; .ok ({ c with flow := f }, r)).map _
    cases c.flow.populate m with
    | error e => rfl
    | ok r => rfl

theorem callM_described (c : Circuit R) (s : Regs) (k : Call R)
    (hk : ∀ cs t p, k = .toffoli cs t p → toffoliDm (R := R) cs t p s.seq = toffoliDm cs t p c.qregs.seq) :
    (c.described s).callM k = (c.callM k).map fun r => (r.1.described s, r.2) := by
  cases k with
  | h q o => exact bind_map_of _ _ _ _ fun _ => bind_map_of _ _ _ _ fun _ => addMoment_described c _ _ _
  | x q o p => exact bind_map_of _ _ _ _ fun _ => bind_map_of _ _ _ _ fun _ => addMoment_described c _ _ _
  | z q o => exact bind_map_of _ _ _ _ fun _ => bind_map_of _ _ _ _ fun _ => addMoment_described c _ _ _
  | cx a b p => exact addMoment_described c _ _ _
  | toffoli cs t p =>
    have e : toffoliDm (R := R) cs t p (c.described s).qregs.seq = toffoliDm cs t p c.qregs.seq := hk _ _ _ rfl
    unfold Circuit.callM
    dsimp only
    rw [e]
    refine bind_map_of _ _ _ _ fun r => ?_
    obtain ⟨U, lb, ub, ds⟩ := r
    simp only [addMoment_described]
    cases c.addMoment (.list (pyRange lb (ub + 1))) (.toffoli cs t (pyRange lb (ub + 1)) ds U p) <;> rfl
  | gate U q o =>
    cases q with
    | int q => exact bind_map_of _ _ _ _ fun _ => bind_map_of _ _ _ _ fun _ => addMoment_described c _ _ _
    | list qs =>
      refine bind_map_of _ _ _ _ fun _ => ?_
      rcases o with _ | _ | k
      · exact bind_map_of (qs.mapM (pyGet c.regDims)) _ _ _ fun _ => addMoment_described c _ _ _
      · exact bind_map_of (qs.mapM (pyGet c.regDims)) _ _ _ fun _ => addMoment_described c _ _ _
      · exact addMoment_described c _ _ _
  | measure q => rfl
  | measureAll => exact bind_map_of (c.flow.populate _) _ _ _ fun _ => rfl

theorem call_described (c : Circuit R) (s : Regs) (k : Call R)
    (hk : ∀ cs t p, k = .toffoli cs t p → toffoliDm (R := R) cs t p s.seq = toffoliDm cs t p c.qregs.seq) :
    (c.described s).call k = ((c.call k).1.described s, (c.call k).2) := by
  unfold Circuit.call
  rw [callM_described c s k hk]
  cases c.callM k <;> rfl

theorem call_qregs (c : Circuit R) (k : Call R) : (c.call k).1.qregs = c.qregs := by
  have h := congrArg (fun r => r.1.qregs) (call_described c c.qregs k fun _ _ _ _ => rfl)
  exact h

theorem calls_described (ks : List (Call R)) (c : Circuit R) (s : Regs)
    (hk : ∀ k ∈ ks, ∀ cs t p, k = .toffoli cs t p → toffoliDm (R := R) cs t p s.seq = toffoliDm cs t p c.qregs.seq) :
    (c.described s).calls ks = (c.calls ks).described s := by
  induction ks generalizing c with
  | nil => rfl
  | cons k ks ih =>
    rw [Circuit.calls_cons, Circuit.calls_cons, call_described c s k (hk k (by simp))]
    exact ih _ fun k' hk' cs t p h => (hk k' (by simp [hk']) cs t p h).trans (by rw [call_qregs])

theorem new_described (n : Nat) (d : Int) (init : List Int) (out : Option Output) :
    Circuit.new (R := R) (.tuple n d) init out =
      (Circuit.new (.list (List.replicate n d)) init (some (out.getD ⟨[n, d.toNat], .print, .amplitude⟩))).map
        fun c => c.described (.tuple n d.toNat) := by
  unfold Circuit.new
  refine bind_map_of _ _ _ _ fun m => ?_
  cases h : Flow.populate { moments := [], measCount := [0] } m <;> cases out <;> rfl

theorem new_qregs (q : RegsArg) (init : List Int) (out : Option Output) :
    ∀ c, Circuit.new (R := R) q init out = .ok c → c.qregs = q.toRegs := by
  intro c
  unfold Circuit.new
  simp only [bind, Except.bind, Flow.populate, List.getLast?_nil]
  cases initMoment (R := R) q.dims (extendStates q.dims.length init) with
  | error e => intro h; cases h
  | ok m => intro h; injection h with h; subst h; rfl

section
variable [StarRing R] [DecidableEq R] [UnitaryCheck R]

theorem run_described (N : Numerics R) (B : Backend R) (c : Circuit R) (s : Regs) :
    ((c.described s).run N B).2 = (c.run N B).2 := by
  have e : (c.described s).runResult N B = c.runResult N B := rfl
  unfold Circuit.run
  rw [e]
  cases c.runResult N B <;> rfl

theorem pair_is_list (N : Numerics R) (B : Backend R) (n : Nat) (d : Int) (init : List Int)
    (out : Option Output) (ks : List (Call R)) (hks : ∀ k ∈ ks, ∀ cs t p, k = .toffoli cs t p →
      toffoliDm (R := R) cs t p [n, d.toNat] = toffoliDm cs t p (List.replicate n d.toNat)) :
    script N B (.tuple n d) init out ks =
      script N B (.list (List.replicate n d)) init (some (out.getD ⟨[n, d.toNat], .print, .amplitude⟩)) ks := by
  unfold script
  rw [new_described]
  cases h : Circuit.new (R := R) (.list (List.replicate n d)) init
      (some (out.getD ⟨[n, d.toNat], .print, .amplitude⟩)) with
  | error e => rfl
  | ok c =>
    change (((c.described (.tuple n d.toNat)).calls ks).run N B).2 = ((c.calls ks).run N B).2
    have hq : c.qregs = (RegsArg.list (List.replicate n d)).toRegs := new_qregs _ _ _ c h
    rw [calls_described ks c _ fun k hk cs t p e => by
      rw [hq]; simpa [RegsArg.toRegs, Regs.seq] using hks k hk cs t p e]
    exact run_described N B _ _

/-- **C21 (what holds instead).** Without `toffoli` calls, a circuit on the pair `(n, d)` is the circuit
on the list of `n` registers of dimension `d` with the output format of radices `n` and `d`, unless another
format is given. The same exceptions included; nothing is assumed of the calls. -/
theorem C21_pair_is_list (N : Numerics R) (B : Backend R) (n : Nat) (d : Int) (init : List Int)
    (out : Option Output) (ks : List (Call R)) (hks : ∀ k ∈ ks, k.isToffoli = false) :
    script N B (.tuple n d) init out ks =
      script N B (.list (List.replicate n d)) init (some (out.getD ⟨[n, d.toNat], .print, .amplitude⟩)) ks :=
  pair_is_list N B n d init out ks fun k hk cs t p e => by
    have := hks k hk
    rw [e] at this
    cases this

/-- **C21.** For two qubits the pair form is the list form, whatever the calls. -/
theorem C21_two_qubits (N : Numerics R) (B : Backend R) (init : List Int)
    (out : Option Output) (ks : List (Call R)) :
    script N B (.tuple 2 2) init out ks = script N B (.list [2, 2]) init out ks := by
  unfold script
  rw [new_described]
  have e : Circuit.new (R := R) (.list (List.replicate 2 2)) init
      (some (out.getD ⟨[2, (2 : Int).toNat], .print, .amplitude⟩)) = Circuit.new (.list [2, 2]) init out := by
    cases out <;> rfl
  rw [e]
  cases h : Circuit.new (R := R) (.list [2, 2]) init out with
  | error e => rfl
  | ok c =>
    change (((c.described (.tuple 2 2)).calls ks).run N B).2 = ((c.calls ks).run N B).2
    have hq : c.qregs = .list [2, 2] := by
      have h1 := new_qregs (R := R) (.list [2, 2]) init out
      rw [h] at h1
      exact h1 c rfl
    rw [calls_described ks c _ fun k hk cs t p h => by rw [hq]; rfl]
    exact run_described N B _ _

variable [Nontrivial R] {N : Numerics R} {B : Backend R}

omit [Nontrivial R] in
theorem output_other {dims : List Nat} {w : Mat R} {ψ : State R} (h : IsVec dims w ψ) (o : Output) :
    o.call w = (outcome dims ψ).mapM (fun e =>
      match nbaseToBin (value dims e.1) o.base with
      | .ok s => .ok (o.key s, o.val e.2)
      | .error e => .error e) := by
  unfold Output.call
  rw [nonzeroRows_vec h, List.mapM_map, outcome, List.mapM_map]
  apply mapM_congr'
  intro s hs
  have hs' := mem_states.1 (List.mem_of_mem_filter hs)
  simp only [Function.comp, h.2.2 s hs']
  cases nbaseToBin (value dims s) o.base <;> rfl

/-- **C21 (what holds instead).** So the labels of the pair form `(n, d)` have two digits, whatever `n`:
basis state number `v` (in lexicographic order) is shown as `v / d`, `v % d`, and `run` raises
`IndexError` when a basis state with number `n * d` or more has a non-zero amplitude. -/
theorem C21_pair_labels (hN : N.Sized) (hB : B.Lawful) {n d : Nat} (hn : 0 < n) {init : List Int}
    (h : ValidStart (List.replicate n (d : Int)) init) {ks : List (Call R)}
    (hks : ∀ k ∈ ks, k.Valid (List.replicate n d)) (hto : ∀ k ∈ ks, k.isToffoli = false) :
    script N B (.tuple n d) init none (ks ++ [.measureAll]) =
      (outcome (List.replicate n d) (stateAfter N (List.replicate n d) init ks)).mapM fun e =>
        let v := value (List.replicate n d) e.1
        if v < n * d then .ok (.str (label [v / d, v % d]), e.2) else .error .index := by
  have hd : 0 < d := by
    have := h.1 d (List.mem_replicate.2 ⟨by omega, rfl⟩)
    omega
  rw [C21_pair_is_list N B n d init none _ (by
    intro k hk
    rcases List.mem_append.1 hk with hk | hk
    · exact hto k hk
    · rw [List.mem_singleton] at hk; subst hk; rfl)]
  have hm : List.replicate n (d : Int) = (List.replicate n d).map Int.ofNat := by simp
  have hne : List.replicate n d ≠ [] := by simp; omega
  rw [hm] at h ⊢
  have h2 := ge_two_of_valid h
  have hl : live (ks ++ [.measureAll]) = ks := live_append_measure fun k hk => (hks k hk).not_measureAll
  rw [script_eq N hB rfl h]
  have hex := exec_total hN (List.length_pos_of_ne_nil hne) h
    (some ⟨[n, d], .print, .amplitude⟩) (ks ++ [.measureAll]) (q := .list ((List.replicate n d).map Int.ofNat))
    (by
      rw [hl]
      intro k hk
      rw [Regular, (hks k hk).applied h2]
      simp) (fun _ => list_toRegs _)
  obtain ⟨w, hw, hv⟩ := hex.2.2.2 (by simp) (by
    rw [hl]
    intro k hk
    rw [(hks k hk).applied h2]
    simp)
  rw [hl, finalState_valid h2 hks] at hv
  unfold Circuit.runResult
  simp only [Option.getD_none, Int.toNat_natCast]
  rw [hw, hex.1]
  refine (output_other hv _).trans ?_
  apply mapM_congr'
  intro e he
  have hb : (freshCircuit (R := R) (.list ((List.replicate n d).map Int.ofNat)) (List.replicate n d) init
      (some ⟨[n, d], .print, .amplitude⟩)).output = ⟨[n, d], .print, .amplitude⟩ := rfl
  rw [hb]
  generalize value (List.replicate n d) e.1 = v
  by_cases hv : v < n * d
  · have hf : Fits [n, d] [v / d, v % d] := by
      refine ⟨rfl, ?_⟩
      intro i h1 h2
      match i with
      | 0 => exact (Nat.div_lt_iff_lt_mul hd).2 hv
      | 1 => exact Nat.mod_lt _ hd
    have hval : value [n, d] [v / d, v % d] = v := by
      simp only [value, List.prod_cons, List.prod_nil, Nat.mul_one, Nat.add_zero]
      exact Nat.div_add_mod' v d
    have := nbaseToBin_value hf
    rw [hval] at this
    simp only [this, if_pos hv]
    rfl
  · have := nbaseToBin_error [n, d] (by simp; omega) v (by simpa using hv)
    simp only [this, if_neg hv]

/-- **C21 (the claim is false).** For every pair other than `(2, 2)` there are valid initial levels
for which the circuit without gates shows another result than on the list of `n` registers of
dimension `d`. -/
theorem C21_pair_differs (hN : N.Sized) (hB : B.Lawful) {n d : Nat} (hn : 0 < n) (hd : 2 ≤ d)
    (hne : ¬ (n = 2 ∧ d = 2)) :
    ∃ init : List Int, ValidStart (List.replicate n (d : Int)) init ∧
      script N B (.tuple n d) init none [.measureAll] ≠
        script N B (.list (List.replicate n (d : Int))) init none [.measureAll] := by
  have key : ∀ init : List Int, ValidStart (List.replicate n (d : Int)) init →
      script N B (.list (List.replicate n (d : Int))) init none [.measureAll] =
        .ok [(.str (label (startLevels (List.replicate n d) init)), 1)] ∧
      script N B (.tuple n d) init none [.measureAll] =
        let v := value (List.replicate n d) (startLevels (List.replicate n d) init)
        if v < n * d then .ok [(.str (label [v / d, v % d]), 1)] else .error .index := by
    intro init h
    have hm : List.replicate n (d : Int) = (List.replicate n d).map Int.ofNat := by simp
    have hne : List.replicate n d ≠ [] := by simp; omega
    have h' := h
    rw [hm] at h'
    have hf : Fits (List.replicate n d) (startLevels (List.replicate n d) init) :=
      (initOps_prepares N h' (List.length_pos_of_ne_nil hne)).1
    constructor
    · have h3 := script_valid hN hB hne h' (out := none) (by simp) (ks := ([] : List (Call R))) valid_nil []
      rw [List.nil_append] at h3
      rw [hm, h3, stateAfter, List.foldl_nil, listing, outcome_basis hf]
      rfl
    · have h3 := C21_pair_labels hN hB hn h (ks := ([] : List (Call R))) valid_nil (by simp)
      rw [List.nil_append] at h3
      rw [h3, stateAfter, List.foldl_nil, outcome_basis hf]
      simp only [List.mapM_cons, List.mapM_nil]
      split <;> rfl
  by_cases h2 : n = 2
  · subst h2
    have hd3 : 3 ≤ d := by omega
    have hv : ValidStart (List.replicate 2 (d : Int)) [2] := by
      refine ⟨?_, by simp, ?_⟩
      · intro x hx
        rw [List.eq_of_mem_replicate hx]
        omega
      · intro i h1 h2
        have : i = 0 := by simpa using h1
        subst this
        simp
        omega
    refine ⟨[2], hv, ?_⟩
    obtain ⟨k1, k2⟩ := key _ hv
    rw [k1, k2]
    have hl : startLevels (List.replicate 2 d) [2] = [2, 0] := by
      have e1 : ((2 : Int) % d).toNat = 2 := by rw [Int.emod_eq_of_lt (by omega) (by omega)]; rfl
      simp [startLevels, List.range_succ, List.replicate_succ, e1]
    rw [hl]
    simp only [List.replicate_succ, List.replicate_zero, value, List.prod_cons, List.prod_nil, Nat.mul_one,
      Nat.zero_mul, Nat.add_zero, Nat.lt_irrefl, if_false]
    intro h
    cases h
  · have hv : ValidStart (List.replicate n (d : Int)) [] := by
      refine ⟨?_, by simp, ?_⟩
      · intro x hx
        rw [List.eq_of_mem_replicate hx]
        omega
      · intro i h1 h2
        simp at h1
    refine ⟨[], hv, ?_⟩
    obtain ⟨k1, k2⟩ := key _ hv
    have hl : startLevels (List.replicate n d) [] = List.replicate n 0 := by
      unfold startLevels
      apply List.ext_getElem
      · simp
      · intro i h1 h2
        simp
    have hval : ∀ n, value (List.replicate n d) (List.replicate n 0) = 0 := by
      intro n
      induction n with
      | zero => rfl
      | succ n ih => simp [List.replicate_succ, value, ih]
    rw [k1, k2, hl, hval]
    simp only
    rw [if_pos (Nat.mul_pos hn (by omega))]
    intro h
    have h3 : label [0 / d, 0 % d] = label (List.replicate n 0) := by simpa using h
    have h4 := congrArg List.length h3
    rw [label_small (by simp), label_small (by simp)] at h4
    simp at h4
    omega

/-- The hypotheses of `C21_pair_labels`: on `(3, 2)`, state 110 is number 6, out of the six two-digit
labels, and the `run` raises; state 011 is shown as 11. -/
example : script sampleN (numpyBackend ℤ) (.tuple 3 2) [] none [.x 0 none 1, .x 1 none 1, .measureAll] = .error .index ∧
    script sampleN (numpyBackend ℤ) (.tuple 3 2) [] none [.x 1 none 1, .x 2 none 1, .measureAll] =
      .ok [(.str ['|', '1', '1', '>'], 1)] := by
  decide +kernel

end

end QuDiet
