import Verif.Lemmas.Moments
import Verif.Props.Sample

/-! # Layers made by hand: C56 -/

namespace QuDiet
open Spec

variable {R : Type} [CommRing R] [StarRing R] [DecidableEq R] [UnitaryCheck R] [Nontrivial R]

/-- **C56.** Layers of gates (no two of which share a register, in the order of their registers, with
identities on the idle registers) handed over to the circuit's operator flow, in any number of calls with
any number of layers each: every call answers `True`, and `run` after `measure_all` prints what it prints if
the gates of `takenAll` are called one by one. These are all gates, except that whenever the first `h`, `x`
or `z` of a layer finds its register idle in the newest layer, that gate is moved there while the other
gates of its layer and all further layers of the same call are dropped. -/
theorem C56_what_takes_effect {N : Numerics R} (hN : N.Sized) {B : Backend R} (hB : B.Lawful)
    {dims : List Nat} (hne : dims ≠ []) {init : List Int} (h : ValidStart (dims.map Int.ofNat) init)
    {out : Option Output} (ho : ∀ o ∈ out, o.base = dims) {groups : List (List (List (Call R)))}
    (hg : ∀ group ∈ groups, ∀ L ∈ group, (∀ k ∈ L, k.Valid dims) ∧ Ascending 0 L) :
    ∃ ms r, groups.mapM (fun group => group.mapM (layerFrom dims 0)) = .ok ms ∧
      script N B (.list (dims.map Int.ofNat)) init out (takenAll none groups ++ [.measureAll]) = .ok r ∧
      handmade N B (.list (dims.map Int.ofNat)) init out ms = .ok (groups.map (fun _ => .ok true), r) := by
  have h2 := ge_two_of_valid h
  have hpos := List.length_pos_of_ne_nil hne
  obtain ⟨ms, newest, hms, htrue, hF⟩ := (Handed.start N hpos init out).feeds hN h2 hg
  rw [List.nil_append] at hF
  obtain ⟨⟨layers, hI⟩, hval, _, f, hf⟩ := hF
  refine ⟨ms, _, hms, script_valid hN hB hne h ho hval [], ?_⟩
  obtain ⟨w, hw, hvec, hout⟩ := hI.run_measured hN h2 h fun k hk => by rw [(hval k hk).applied h2]; simp
  unfold handmade
  rw [new_ok rfl h out]
  simp only [bind, Except.bind]
  set c := (Circuit.feeds (freshCircuit (.list (dims.map Int.ofNat)) dims init out) ms).1 with hc
  have hres : ((c.calls [.measureAll]).run N B).2 =
      .ok (listing (format dims out) dims (stateAfter N dims init (takenAll none groups))) := by
    have : (c.calls [.measureAll]).runResult N B =
        .ok (listing (format dims out) dims (stateAfter N dims init (takenAll none groups))) := by
      rw [runResult_backend hB]
      unfold Circuit.runResult
      rw [hw, hout, hf]
      simp only
      rw [fresh_output, ← finalState_valid (N := N) (init := init) h2 hval]
      exact output_vec hvec _ (format_base ho)
    unfold Circuit.run
    rw [this]
  rw [hres, htrue]

/-- There is no room in layer `L` for the first `h`, `x` or `z` of layer `L'`. -/
def NoRoom (L L' : List (Call R)) : Prop :=
  ∀ k, L'.find? (·.isHXZ) = some k → ∃ q ∈ k.regs, ∃ k' ∈ L, k'.covers q.toNat

omit [StarRing R] [DecidableEq R] [UnitaryCheck R] [Nontrivial R] in
theorem taken_all {newest : Option (List (Call R))} {group : List (List (Call R))}
    (hc : List.IsChain NoRoom ((newest.toList ++ group))) :
    (taken newest group).1 = group.flatten ∧
      (taken newest group).2 = (group.getLast?.map some).getD newest := by
  induction group generalizing newest with
  | nil => exact ⟨rfl, rfl⟩
  | cons L group ih =>
    have hno : ∀ k, L.find? (·.isHXZ) = some k → ¬ Room newest k := by
      rintro k hk ⟨P, rfl, hP⟩
      have := (List.isChain_cons_cons.1 hc).1 k hk
      obtain ⟨q, hq, k', hk', hcov⟩ := this
      exact hP q hq k' hk' hcov
    have hc' : List.IsChain NoRoom ((some L).toList ++ group) := by
      cases newest with
      | none => exact hc
      | some P => exact (List.isChain_cons_cons.1 hc).2
    obtain ⟨h1, h2⟩ := ih hc'
    have e : (group.getLast?.map some).getD (some L) = ((L :: group).getLast?.map some).getD newest := by
      cases group with
      | nil => rfl
      | cons a l => rw [List.getLast?_cons_cons]; simp [List.getLast?_eq_some_getLast]
    cases hf : L.find? (·.isHXZ) with
    | none => simp only [taken, hf, h1, h2, List.flatten_cons, e, and_self]
    | some k => simp only [taken, hf, if_neg (hno k hf), h1, h2, List.flatten_cons, e, and_self]

omit [StarRing R] [DecidableEq R] [UnitaryCheck R] [Nontrivial R] in
theorem takenAll_all {newest : Option (List (Call R))} {groups : List (List (List (Call R)))}
    (hc : List.IsChain NoRoom (newest.toList ++ groups.flatten)) :
    takenAll newest groups = groups.flatten.flatten := by
  induction groups generalizing newest with
  | nil => rfl
  | cons group groups ih =>
    rw [List.flatten_cons, ← List.append_assoc] at hc
    obtain ⟨h1, h2⟩ := taken_all (List.isChain_append.1 hc).1
    rw [takenAll, h1, h2, List.flatten_cons, List.flatten_append]
    congr 1
    apply ih
    cases hl : group.getLast? with
    | none =>
      have : group = [] := by simpa using hl
      subst this
      simpa using hc
    | some L =>
      obtain ⟨pre, rfl⟩ : ∃ pre, group = pre ++ [L] := by
        rw [List.getLast?_eq_some_iff] at hl
        exact hl
      simp only [Option.map_some, Option.getD_some, Option.toList_some, List.singleton_append]
      have := (List.isChain_append.1 (by simpa [List.append_assoc] using hc :
        List.IsChain NoRoom ((newest.toList ++ pre) ++ (L :: groups.flatten)))).2.1
      exact this

/-- **C56.** If no layer has room for the first `h`, `x` or `z` of the layer after it, all gates of all layers
take effect, as if they were called one by one. -/
theorem C56_layers_act {N : Numerics R} (hN : N.Sized) {B : Backend R} (hB : B.Lawful)
    {dims : List Nat} (hne : dims ≠ []) {init : List Int} (h : ValidStart (dims.map Int.ofNat) init)
    {out : Option Output} (ho : ∀ o ∈ out, o.base = dims) {groups : List (List (List (Call R)))}
    (hg : ∀ group ∈ groups, ∀ L ∈ group, (∀ k ∈ L, k.Valid dims) ∧ Ascending 0 L)
    (hroom : List.IsChain NoRoom groups.flatten) :
    ∃ ms r, groups.mapM (fun group => group.mapM (layerFrom dims 0)) = .ok ms ∧
      script N B (.list (dims.map Int.ofNat)) init out (groups.flatten.flatten ++ [.measureAll]) = .ok r ∧
      handmade N B (.list (dims.map Int.ofNat)) init out ms = .ok (groups.map (fun _ => .ok true), r) := by
  have := C56_what_takes_effect hN hB hne h ho hg
  rwa [takenAll_all hroom] at this

/-- **C56.** Otherwise gates are lost without notice: if the first layer leaves the register of the first
`h`, `x` or `z` of the second layer idle, the circuit does what the first layer and that single gate do,
whatever else the second layer contains and whatever layers follow in the same call. -/
theorem C56_rest_is_dropped {N : Numerics R} (hN : N.Sized) {B : Backend R} (hB : B.Lawful)
    {dims : List Nat} (hne : dims ≠ []) {init : List Int} (h : ValidStart (dims.map Int.ofNat) init)
    {out : Option Output} (ho : ∀ o ∈ out, o.base = dims) {L L' : List (Call R)} {k : Call R}
    {rest : List (List (Call R))}
    (hg : ∀ M ∈ L :: L' :: rest, (∀ k ∈ M, k.Valid dims) ∧ Ascending 0 M)
    (hk : L'.find? (·.isHXZ) = some k) (hroom : ∀ q ∈ k.regs, ∀ k' ∈ L, ¬ k'.covers q.toNat) :
    ∃ ms r, (L :: L' :: rest).mapM (layerFrom dims 0) = .ok ms ∧
      script N B (.list (dims.map Int.ofNat)) init out (L ++ [k, .measureAll]) = .ok r ∧
      handmade N B (.list (dims.map Int.ofNat)) init out [ms] = .ok ([.ok true], r) := by
  obtain ⟨ms, r, hms, hs, hh⟩ := C56_what_takes_effect hN hB hne h ho (groups := [L :: L' :: rest])
    (by simpa using hg)
  have e : takenAll none [L :: L' :: rest] = L ++ [k] := by
    have h1 : ∀ k : Call R, ¬ Room none k := by rintro k ⟨_, h, _⟩; cases h
    have h2 : Room (some L) k := ⟨L, rfl, hroom⟩
    cases hL : L.find? (·.isHXZ) with
    | none => simp only [takenAll, taken, hL, hk, if_pos h2, List.append_nil]
    | some k0 => simp only [takenAll, taken, hL, if_neg (h1 k0), hk, if_pos h2, List.append_nil]
  rw [e, List.append_assoc] at hs
  simp only [List.mapM_cons, List.mapM_nil, bind, Except.bind, pure, Except.pure] at hms
  split at hms
  · cases hms
  · rename_i m hm
    injection hms with hms
    subst hms
    exact ⟨m, r, by simpa [List.mapM_cons, bind, Except.bind, pure, Except.pure] using hm, hs, hh⟩

omit [CommRing R] [StarRing R] [DecidableEq R] [UnitaryCheck R] [Nontrivial R] in
/-- **C56.** A circuit all of whose registers are measured refuses layers and stays as it is. -/
theorem C56_closed {c : Circuit R} (hm : c.flow.moments ≠ []) (hall : ∀ n ∈ c.flow.measCount, n ≠ 0)
    (m : List (GateObj R)) (ms : List (List (GateObj R))) : c.feed (m :: ms) = (c, .ok false) := by
  obtain ⟨last, hl⟩ : ∃ last, c.flow.moments.getLast? = some last :=
    ⟨_, List.getLast?_eq_some_getLast hm⟩
  have : c.flow.measCount.all (· ≠ 0) = true := by simpa using hall
  have e : c.flow.feedOne m = (c.flow, .ok .refused) := by
    unfold Flow.feedOne
    simp only [hl, this, if_true]
  unfold Circuit.feed Flow.feed
  rw [e]

/-! ### Examples -/

/-- Three layers on a qutrit and two qubits without room for each other's gates. -/
def sampleLayers : List (List (List (Call ℤ))) :=
  [[[.x 0 none 2, .x 1 none 1], [.cx 0 2 1]], [[.x 1 none 1, .x 2 none 1]]]

theorem sampleLayers_ok : ∀ group ∈ sampleLayers, ∀ L ∈ group,
    (∀ k ∈ L, k.Valid [3, 2, 2]) ∧ Ascending 0 L := by
  simp [sampleLayers, Call.Valid, InRange, DimOK, spanOf, Ascending, Call.regs]

theorem sampleLayers_noRoom : List.IsChain NoRoom sampleLayers.flatten := by
  simp only [sampleLayers, List.flatten_cons, List.flatten_nil, List.cons_append, List.nil_append, List.append_nil,
    List.isChain_cons_cons, List.isChain_singleton, and_true, NoRoom]
  refine ⟨?_, ?_⟩
  · intro k hk
    simp [Call.isHXZ] at hk
  · intro k hk
    simp only [List.find?_cons, Call.isHXZ, Option.some.injEq] at hk
    subst hk
    exact ⟨1, by simp [Call.regs], .cx 0 2 1, by simp, by decide⟩

example : ∃ ms r, sampleLayers.mapM (fun group => group.mapM (layerFrom [3, 2, 2] 0)) = .ok ms ∧
    script sampleN (numpyBackend ℤ) (.list [3, 2, 2]) [] none
      ([.x 0 none 2, .x 1 none 1, .cx 0 2 1, .x 1 none 1, .x 2 none 1] ++ [.measureAll]) = .ok r ∧
    handmade sampleN (numpyBackend ℤ) (.list [3, 2, 2]) [] none ms = .ok ([.ok true, .ok true], r) :=
  C56_layers_act sampleN_sized numpy_lawful (dims := [3, 2, 2]) (by simp) (validStart_of rfl) (by simp)
    sampleLayers_ok sampleLayers_noRoom

/-- **C56, counterexample.** `x` on register 0 in one layer, `x` on registers 1 and 2 in a second layer:
handed over together, the circuit ends in `|110>`, although the three gates called one by one give `|111>`;
both calls report success. -/
theorem C56_gate_lost :
    ∃ ms, [[.x 0 none 1], [.x 1 none 1, .x 2 none 1]].mapM (layerFrom (R := ℤ) [2, 2, 2] 0) = .ok ms ∧
      handmade sampleN (numpyBackend ℤ) (.list [2, 2, 2]) [] none [ms]
        = .ok ([.ok true], [(.str ['|', '1', '1', '0', '>'], 1)]) ∧
      script sampleN (numpyBackend ℤ) (.list [2, 2, 2]) [] none
        [.x 0 none 1, .x 1 none 1, .x 2 none 1, .measureAll] = .ok [(.str ['|', '1', '1', '1', '>'], 1)] := by
  obtain ⟨ms, r, h1, h2, h3⟩ := C56_rest_is_dropped sampleN_sized numpy_lawful (dims := [2, 2, 2])
    (by simp) (init := []) (validStart_of rfl) (out := none) (by simp) (L := [.x 0 none 1])
    (L' := [.x 1 none 1, .x 2 none 1]) (k := .x 1 none 1) (rest := [])
    (by simp [Call.Valid, InRange, DimOK, spanOf, Ascending, Call.regs]) (by simp [List.find?_cons, Call.isHXZ])
    (by simp [Call.regs, Call.covers, spanOf])
  refine ⟨ms, h1, ?_, ?_⟩
  · have : script sampleN (numpyBackend ℤ) (.list [2, 2, 2]) [] none
        ([.x 0 none 1] ++ [.x 1 none 1, .measureAll]) = .ok [(.str ['|', '1', '1', '0', '>'], 1)] := by
      decide +kernel
    have e : r = [(.str ['|', '1', '1', '0', '>'], 1)] := by
      have h2' : script sampleN (numpyBackend ℤ) (.list [2, 2, 2]) [] none
        ([.x 0 none 1] ++ [.x 1 none 1, .measureAll]) = .ok r := h2
      rw [this] at h2'
      injection h2' with h2'
      exact h2'.symm
    rw [e] at h3
    exact h3
  · decide +kernel

/-- The circuit of a qubit, measured. -/
example (m : List (GateObj ℤ)) (ms : List (List (GateObj ℤ))) :
    (((freshCircuit (.list [2, 2]) [2, 2] [] none).calls [.x 0 none 1, .measureAll]).feed (m :: ms)).2
      = .ok false := by
  rw [C56_closed]
  · intro h
    have : (((freshCircuit (R := ℤ) (.list [2, 2]) [2, 2] [] none).calls [.x 0 none 1, .measureAll]).flow.moments).length
      = 3 := by decide +kernel
    rw [h] at this
    cases this
  · have : ((freshCircuit (R := ℤ) (.list [2, 2]) [2, 2] [] none).calls [.x 0 none 1, .measureAll]).flow.measCount
      = [1, 1] := by decide +kernel
    rw [this]
    decide

end QuDiet
