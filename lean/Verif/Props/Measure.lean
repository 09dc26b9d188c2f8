import Verif.Lemmas.Any
import Verif.Props.Construct

/-! # C16: measurement is required, and closes the circuit -/

namespace QuDiet

open Spec

variable {R : Type} [CommRing R]

/-- What `get_circuit_config()` and `get_circuit_info()` say after the calls. -/
def reports (qregs : RegsArg) (init : List Int) (out : Option Output) (ks : List (Call R)) :
    PyM (Width × Int × Info) := do
  let c ← Circuit.new (R := R) qregs init out
  let c := c.calls ks
  .ok (c.width, c.depth, c.info)

/-- An accepted construction gives the fresh circuit on natural dimensions. -/
theorem new_fresh {q : RegsArg} {init : List Int} {out : Option Output} {c : Circuit R}
    (h : Circuit.new q init out = .ok c) :
    ∃ dims : List Nat, q.dims = dims.map Int.ofNat ∧ ValidStart (dims.map Int.ofNat) init ∧
      c = freshCircuit q dims init out := by
  have hv := (C20_constructor_accepts (R := R) q init out).1 ⟨c, h⟩
  have hd : q.dims = (q.dims.map Int.toNat).map Int.ofNat := by
    rw [List.map_map]
    conv_lhs => rw [← List.map_id q.dims]
    apply List.map_congr_left
    intro d hd
    have := hv.1 d hd
    simp
    omega
  have hv' : ValidStart ((q.dims.map Int.toNat).map Int.ofNat) init := by
    rw [← hd]
    exact ⟨hv.1, hv.2.1, fun i h1 h2 => hv.2.2 i h2 h1⟩
  refine ⟨q.dims.map Int.toNat, hd, hv', ?_⟩
  rw [new_ok hd hv' out] at h
  injection h with h
  exact h.symm

section
variable [StarRing R] [DecidableEq R] [UnitaryCheck R]

theorem script_new (N : Numerics R) (B : Backend R) {q : RegsArg} {init : List Int} {out : Option Output}
    {c : Circuit R} (h : Circuit.new q init out = .ok c) (ks : List (Call R)) :
    script N B q init out ks = (c.calls ks).runResult N B := by
  unfold script
  rw [h]
  change ((c.calls ks).run N B).2 = _
  unfold Circuit.run
  cases (c.calls ks).runResult N B <;> rfl

/-- **C16.** On at least one register, `run()` raises `AssertionError` until `measure_all()` has been
called, whatever else has been called. -/
theorem C16_run_needs_measure_all (N : Numerics R) (B : Backend R) {q : RegsArg} {init : List Int}
    {out : Option Output} {c : Circuit R} (hc : Circuit.new q init out = .ok c) (hn : q.dims ≠ [])
    {ks : List (Call R)} (hks : .measureAll ∉ ks) :
    script N B q init out ks = .error .assertion := by
  rw [script_new N B hc]
  obtain ⟨dims, hd, hv, rfl⟩ := new_fresh hc
  have hpos : 0 < dims.length := by
    apply List.length_pos_of_ne_nil
    rintro rfl
    exact hn hd
  rcases (reach_any (q := q) hpos init out ks).2 with ⟨_, layers, hu⟩ | ⟨h, _⟩
  · unfold Circuit.runResult Flow.exec
    rw [hu.notAll]
    rfl
  · exact absurd h hks

omit [StarRing R] [DecidableEq R] [UnitaryCheck R] in
theorem closed_calls {q : RegsArg} {dims : List Nat} (hpos : 0 < dims.length) (init : List Int)
    (out : Option Output) (pre post : List (Call R)) :
    (freshCircuit (R := R) q dims init out).calls (pre ++ .measureAll :: post) =
      (freshCircuit q dims init out).calls (pre ++ [.measureAll]) := by
  have e : pre ++ .measureAll :: post = (pre ++ [.measureAll]) ++ post := by simp
  rw [e, Circuit.calls_append]
  apply calls_measured
  rcases (reach_any (q := q) hpos init out (pre ++ [.measureAll])).2 with ⟨h, _⟩ | ⟨_, h⟩
  · simp at h
  · exact h

/-- **C16.** After `measure_all()`, no call changes what `run()`, `get_circuit_config()` and
`get_circuit_info()` return. -/
theorem C16_closed (N : Numerics R) (B : Backend R) (q : RegsArg) (hn : q.dims ≠ []) (init : List Int)
    (out : Option Output) (pre post : List (Call R)) :
    script N B q init out (pre ++ .measureAll :: post) = script N B q init out (pre ++ [.measureAll]) ∧
    reports q init out (pre ++ .measureAll :: post) = reports q init out (pre ++ [.measureAll]) := by
  unfold script reports
  cases hc : Circuit.new (R := R) q init out with
  | error e => exact ⟨rfl, rfl⟩
  | ok c =>
    obtain ⟨dims, hd, hv, rfl⟩ := new_fresh hc
    have hpos : 0 < dims.length := by
      apply List.length_pos_of_ne_nil
      rintro rfl
      exact hn hd
    have := closed_calls (R := R) (q := q) hpos init out pre post
    constructor
    · change (Circuit.run N B _).2 = (Circuit.run N B _).2
      rw [this]
    · change Except.ok _ = Except.ok _
      rw [this]

end

/-- Does the method return `True` even when nothing was added? -/
def Call.alwaysTrue : Call R → Bool
  | .toffoli .. => true
  | .measureAll => true
  | _ => false

/-- A measured circuit answers a call by the exception it raises on the fresh one, or by `False` (`True` for
`toffoli` and `measure_all`). -/
theorem answer_measured {c c0 : Circuit R} (h : c.Measured) (hn : c.regLength = c.regDims.length)
    (e1 : c.qregs = c0.qregs) (e2 : c.regDims = c0.regDims)
    (e3 : c.regLength = c0.regLength) {dims : List Nat} {initM : List (GateObj R)}
    {layers : List (List (GateObj R) × List Unit)} (hu : Unmeasured dims Free c0 initM layers) (k : Call R) :
    (c.call k).2 = match (c0.call k).2 with
      | .error e => .error e
      | .ok _ => .ok k.alwaysTrue := by
  cases hk : k.isMeasureAll with
  | true =>
    obtain rfl : k = .measureAll := by cases k <;> first | rfl | cases hk
    rw [hu.measure]
    unfold Circuit.call
    simp only [Circuit.callM, populate_measured c.flow _ h.1 h.2, bind, Except.bind]
    rfl
  | false =>
    rcases callM_any c0 k hk with ⟨e, he⟩ | ⟨ra, lb, ub, g, hA⟩
    · simp only [Circuit.call, he c e1 e2 e3, he c0 rfl rfl rfl]
    · rcases call_any hu hk with ⟨_, ⟨e, he⟩, _⟩ | ⟨_, _, _, _, f, _, _, h2, _⟩
      · obtain ⟨f, _, h1, _⟩ := addMoment_spec hu (bI := fun _ => ()) (fun _ _ => trivial) hA.gateAt ()
          (fun _ => trivial)
        have := hA.call _ _ h1
        simp [Circuit.call, this] at he
      · rw [h2]
        simp only
        rcases callM_any c k hk with ⟨e, he⟩ | ⟨ra', lb', ub', g', hA'⟩
        · exfalso
          have h3 := he c0 e1.symm e2.symm e3.symm
          simp [Circuit.call, h3] at h2
        · have hdata := momentData_eq c hn hA'.gateAt.bounds hA'.gateAt.le g'
          have hadd : c.addMoment ra' g' = .ok (c, false) := by
            unfold Circuit.addMoment
            simp only [hdata, bind, Except.bind, populate_measured c.flow _ h.1 h.2]
          have := hA'.call _ _ hadd
          simp only [Circuit.call, this]
          cases k <;> first | rfl | cases hk

/-- **C16.** After `measure_all()` a call raises exactly what it raises on the new circuit; if it does not
raise, it returns `False`, except that `toffoli` and `measure_all` return `True` although nothing is added. -/
theorem C16_answers_after (q : RegsArg) (hn : q.dims ≠ []) (init : List Int)
    (out : Option Output) (pre post : List (Call R)) (k : Call R) :
    answer q init out (pre ++ .measureAll :: post) k =
      match answer q init out [] k with
      | .error e => .error e
      | .ok _ => .ok k.alwaysTrue := by
  unfold answer
  cases hc : Circuit.new (R := R) q init out with
  | error e => rfl
  | ok c =>
    obtain ⟨dims, hd, hv, rfl⟩ := new_fresh hc
    have hpos : 0 < dims.length := by
      apply List.length_pos_of_ne_nil
      rintro rfl
      exact hn hd
    obtain ⟨⟨f, hf⟩, h2⟩ := reach_any (R := R) (q := q) hpos init out (pre ++ .measureAll :: post)
    rcases h2 with ⟨h, _⟩ | ⟨_, h⟩
    · simp at h
    · refine answer_measured (c0 := freshCircuit q dims init out) h ?_ ?_ ?_ ?_ (fresh_any (q := q) hpos init out) k
      all_goals rw [hf]
      all_goals rfl

/-- **C16.** Before `measure_all()`, whether and what a call raises does not depend on the calls before it,
and a call that does not raise returns `True`. -/
theorem C16_answers_before (q : RegsArg) (hn : q.dims ≠ []) (init : List Int)
    (out : Option Output) {pre : List (Call R)} (hpre : .measureAll ∉ pre) (k : Call R) :
    answer q init out pre k = answer q init out [] k ∧
      ∀ b, answer q init out pre k = .ok b → b = true := by
  unfold answer
  cases hc : Circuit.new (R := R) q init out with
  | error e => exact ⟨rfl, fun b h => by cases h⟩
  | ok c =>
    obtain ⟨dims, hd, hv, rfl⟩ := new_fresh hc
    have hpos : 0 < dims.length := by
      apply List.length_pos_of_ne_nil
      rintro rfl
      exact hn hd
    obtain ⟨⟨f, hf⟩, h2⟩ := reach_any (R := R) (q := q) hpos init out pre
    rcases h2 with ⟨_, layers, hu⟩ | ⟨h, _⟩
    swap
    · exact absurd h hpre
    have hu0 := fresh_any (R := R) (q := q) hpos init out
    set c := (freshCircuit (R := R) q dims init out).calls pre with hcdef
    change (c.call k).2 = ((freshCircuit (R := R) q dims init out).call k).2 ∧ ∀ b, (c.call k).2 = .ok b → b = true
    cases hk : k.isMeasureAll with
    | true =>
      obtain rfl : k = .measureAll := by cases k <;> first | rfl | cases hk
      rw [hu.measure, hu0.measure]
      exact ⟨rfl, fun b h => by injection h with h; exact h.symm⟩
    | false =>
      rcases call_any hu hk with ⟨⟨e, hs⟩, _, _⟩ | ⟨_, _, _, _, _, _, _, h3, _⟩
      · have e0 : (freshCircuit (R := R) q dims init out).callM k = .error e := hs _ (by rw [hf]) (by rw [hf]) (by rw [hf])
        have e1 : c.callM k = .error e := hs c rfl rfl rfl
        simp only [Circuit.call, e0, e1]
        exact ⟨trivial, fun b h => by cases h⟩
      · rcases call_any hu0 hk with ⟨⟨e, hs⟩, _, _⟩ | ⟨_, _, _, _, _, _, _, h4, _⟩
        · exfalso
          have e1 : c.callM k = .error e := hs c (by rw [hf]) (by rw [hf]) (by rw [hf])
          simp [Circuit.call, e1] at h3
        · rw [h3, h4]
          exact ⟨rfl, fun b h => by injection h with h; exact h.symm⟩

/-- The hypotheses: two registers, a few calls before and after measuring. -/
example : script sampleN (numpyBackend ℤ) (.list [2, 3]) [] none [.x 1 none 2, .cx 0 1 1] = .error .assertion := by
  obtain ⟨c, hc⟩ := (C20_constructor_accepts (R := ℤ) (.list [2, 3]) [] none).2 (by decide)
  exact C16_run_needs_measure_all _ _ hc (by decide) (by simp)

example : answer (R := ℤ) (.list [2, 3]) [] none ([.x 1 none 2] ++ .measureAll :: [.cx 0 1 1]) (.x 0 none 1) = .ok false := by
  rw [C16_answers_after _ (by decide)]
  rfl

example : answer (R := ℤ) (.list [2, 3]) [] none ([.x 1 none 2] ++ .measureAll :: [.cx 0 1 1]) (.x 2 none 1) =
    .error .value := by
  rw [C16_answers_after _ (by decide)]
  rfl

end QuDiet
