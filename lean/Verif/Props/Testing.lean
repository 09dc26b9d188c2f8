import Verif.Props.Custom
import Verif.Props.Labels
import Verif.Props.Qubits

/-! # C92: which runs tell two circuits apart

A user who wants to know whether two pieces of a circuit can be exchanged can only run them. Here is which runs are
enough: one for each list of initial levels, with amplitudes. None of these can be left out, and squares of amplitudes
are not enough. -/

namespace QuDiet
open Spec

section
variable {R : Type} [CommRing R] [StarRing R] [DecidableEq R] [UnitaryCheck R] [Nontrivial R]
variable {N : Numerics R} {B : Backend R} {dims : List Nat}

theorem same_of_amplitudes (hN : N.Sized) (hB : B.Lawful) (hne : dims ≠ []) (h2 : ∀ d ∈ dims, 2 ≤ d)
    {as bs : List (Call R)} (ha : ∀ k ∈ as, k.Valid dims) (hb : ∀ k ∈ bs, k.Valid dims)
    (h : ∀ t, Fits dims t → EqOn dims (stateAfter N dims (asInit t) as) (stateAfter N dims (asInit t) bs)) :
    SameResults N B dims as bs := by
  refine sameResults_of hN hB hne ha hb fun ψ s hs => ?_
  refine (applyAll_expand N ha ψ hs).trans (Eq.trans ?_ (applyAll_expand N hb ψ hs).symm)
  apply map_congr_sum
  intro t ht
  have ht' := mem_states.1 ht
  have := h t ht' s hs
  rw [stateAfter_eq, stateAfter_eq, startLevels_asInit ht'] at this
  rw [this]

/-- **C92.** To know whether calls can be exchanged for others in any circuit (with any calls before and after, initial
levels and output format) it is enough to run both alone, once from each list of initial levels, and to compare the
amplitudes shown. -/
theorem C92_initial_levels_decide (hN : N.Sized) (hB : B.Lawful) (hne : dims ≠ []) (h2 : ∀ d ∈ dims, 2 ≤ d)
    {as bs : List (Call R)} (ha : ∀ k ∈ as, k.Valid dims) (hb : ∀ k ∈ bs, k.Valid dims) :
    (∀ t, Fits dims t →
      script N B (.list (dims.map Int.ofNat)) (asInit t) (some ⟨dims, .state, .amplitude⟩) (as ++ [.measureAll]) =
        script N B (.list (dims.map Int.ofNat)) (asInit t) (some ⟨dims, .state, .amplitude⟩) (bs ++ [.measureAll])) ↔
    SameResults N B dims as bs := by
  constructor
  · intro h
    refine same_of_amplitudes hN hB hne h2 ha hb fun t ht s hs => ?_
    have hv := validStart_asInit h2 ht
    rw [← amplitude_eq hN hB hne hv ha hs, ← amplitude_eq hN hB hne hv hb hs]
    unfold amplitude
    rw [h t ht]
  · intro h t ht
    simpa using h (asInit t) (some ⟨dims, .state, .amplitude⟩) (validStart_asInit h2 ht) [] [] (by simp) (by simp)

/-- **C92.** The printed results are enough when no two lists of levels print alike (C12). -/
theorem C92_print_decides (hN : N.Sized) (hB : B.Lawful) (hne : dims ≠ []) (h2 : ∀ d ∈ dims, 2 ≤ d)
    (hn : ¬ ∃ i j, i < j ∧ j < dims.length ∧ 11 ≤ dims.getD i 0 ∧ 11 ≤ dims.getD j 0 ∧
      (12 ≤ dims.getD i 0 ∨ i + 2 ≤ j))
    {as bs : List (Call R)} (ha : ∀ k ∈ as, k.Valid dims) (hb : ∀ k ∈ bs, k.Valid dims) :
    (∀ t, Fits dims t →
      script N B (.list (dims.map Int.ofNat)) (asInit t) none (as ++ [.measureAll]) =
        script N B (.list (dims.map Int.ofNat)) (asInit t) none (bs ++ [.measureAll])) ↔
    SameResults N B dims as bs := by
  rw [← C92_initial_levels_decide hN hB hne h2 ha hb]
  refine ⟨fun h t ht => C12_print_decides hN hB hne hn (validStart_asInit h2 ht) (validStart_asInit h2 ht) ha hb (h t ht) _,
    fun h t ht => ?_⟩
  have := (C92_initial_levels_decide hN hB hne h2 ha hb).1 h (asInit t) none (validStart_asInit h2 ht) [] [] (by simp) (by simp)
  simpa using this

/-- The identity matrix on the levels of registers, except that the entry of the levels `t` is `-1`. -/
def flipAt (R : Type) [CommRing R] (dims t : List Nat) : Mat R :=
  ⟨dims.prod, dims.prod, fun i j => if i = j then (if i = value dims t then -1 else 1) else 0⟩

omit [StarRing R] [DecidableEq R] [UnitaryCheck R] [Nontrivial R] in
theorem flip_sum {t s : List Nat} (hs : Fits dims s) (ht : Fits dims t) (ψ : State R) :
    ((states dims).map fun u => (flipAt R dims t).e (value dims s) (value dims u) * ψ u).sum =
      (if s = t then -1 else 1) * ψ s := by
  have : ∀ u ∈ states dims, (flipAt R dims t).e (value dims s) (value dims u) * ψ u =
      if s = u then (if s = t then -1 else 1) * ψ s else 0 := by
    intro u hu
    have hu' := mem_states.1 hu
    simp only [flipAt]
    by_cases e : s = u
    · subst e
      by_cases e' : s = t
      · subst e'; simp
      · have : ¬ value dims s = value dims t := fun h => e' (value_inj hs ht h)
        simp [e', this]
    · have : ¬ value dims s = value dims u := fun h => e (value_inj hs hu' h)
      simp [e, this]
  rw [map_congr_sum this, sum_ite_eq _ (nodup_states dims) _ (mem_states.2 hs) fun _ => (if s = t then -1 else 1) * ψ s]

/-- **C92.** None of these runs can be left out: for every list of initial levels `t` there is a custom gate (on all
registers, named in any list of length other than two) that gives the results of no gate at all from every other list of
levels, and another result from `t`; if the check accepts its matrix, which is unitary. -/
theorem C92_every_run_needed (hN : N.Sized) (hB : B.Lawful) (hne : dims ≠ []) (h2 : ∀ d ∈ dims, 2 ≤ d)
    (h1 : (-1 : R) ≠ 1) {t : List Nat} (ht : Fits dims t) {qs : List Int}
    (hq : (RegArg.list qs).Spans 0 (dims.length - 1)) (hlen : qs.length ≠ 2) :
    (flipAt R dims t).Unitary ∧ ((flipAt R dims t).isUnitary = true →
      (Call.gate (flipAt R dims t) (.list qs) none).Valid dims ∧
      ∀ s, Fits dims s →
        (script N B (.list (dims.map Int.ofNat)) (asInit s) (some ⟨dims, .state, .amplitude⟩)
            ([.gate (flipAt R dims t) (.list qs) none] ++ [.measureAll]) =
          script N B (.list (dims.map Int.ofNat)) (asInit s) (some ⟨dims, .state, .amplitude⟩) ([] ++ [.measureAll]) ↔
        s ≠ t)) := by
  have hpos : 0 < dims.length := List.length_pos_iff.2 hne
  constructor
  · intro i hi j hj
    change ((List.range dims.prod).map fun k => (if i = k then (if i = value dims t then (-1 : R) else 1) else 0) *
      star (if j = k then (if j = value dims t then (-1 : R) else 1) else 0)).sum = _
    have : ∀ k ∈ List.range dims.prod, (if i = k then (if i = value dims t then (-1 : R) else 1) else 0) *
        star (if j = k then (if j = value dims t then (-1 : R) else 1) else 0) =
        if i = k then (if i = j then 1 else 0) else 0 := by
      intro k _
      by_cases e : i = k
      · subst e
        by_cases e' : i = j
        · subst e'
          by_cases e2 : i = value dims t <;> simp [e2]
        · have : ¬ j = i := fun h => e' h.symm
          simp [e', this]
      · simp [e]
    rw [map_congr_sum this]
    exact sum_ite_eq _ List.nodup_range i (List.mem_range.2 hi) fun _ => if i = j then (1 : R) else 0
  intro hU
  have hin : ∀ q ∈ qs, InRange dims q := by
    intro q hqq
    have := hq.2.2 q hqq
    exact ⟨by omega, by omega⟩
  have hsp := (span_eq hin hq).1
  have hsl : ((dims.drop (spanOf qs).1).take (spanOf qs).2) = dims := by
    rw [hsp]
    simp only [List.drop_zero]
    rw [List.take_of_length_le (by omega)]
  have hv : (Call.gate (flipAt R dims t) (.list qs) none).Valid dims := by
    refine ⟨?_, hin, rfl, hlen, hU, ?_, ?_⟩
    · rintro rfl
      simpa using hq.1
    · rw [hsl]; rfl
    · rw [hsl]; rfl
  refine ⟨hv, fun s hs => ?_⟩
  obtain ⟨-, -, -, -, -, eU⟩ := gate_block N hv hq
  have hst := validStart_asInit h2 hs
  have e : EqOn dims (stateAfter N dims (asInit s) [.gate (flipAt R dims t) (.list qs) none])
      fun u => (if u = t then -1 else 1) * basis s u := by
    intro u hu
    rw [stateAfter_eq, startLevels_asInit hs]
    exact (eU _ u hu).trans ((onBlock_all (by omega) _ _ u hu).trans (flip_sum hu ht _))
  have e0 : stateAfter N dims (asInit s) [] = basis s := by rw [stateAfter_eq, startLevels_asInit hs]; rfl
  constructor
  · rintro h rfl
    have ha : amplitude N B dims (asInit s) [.gate (flipAt R dims s) (.list qs) none] s =
        amplitude N B dims (asInit s) [] s := by
      unfold amplitude
      rw [h]
    rw [amplitude_eq hN hB hne hst (by simpa using hv) hs, amplitude_eq hN hB hne hst (by simp) hs, e s hs, e0] at ha
    simp [basis] at ha
    exact h1 ha
  · intro hne'
    refine script_congr hN hB hne hst hst _ (by simpa using hv) (by simp) (fun u hu => ?_) [] []
    rw [e u hu, e0]
    by_cases hut : u = t
    · have : ¬ u = s := fun h => hne' (h ▸ hut)
      simp [basis, this]
    · simp [hut]

end

/-! ### Probabilities -/

section
variable [UnitaryCheck ℂ] {N : Numerics ℂ}

/-- **C92.** Squares of amplitudes are not enough: with `OutputMethod.probability`, `z` at the end of a circuit on a
qubit shows the same as leaving it out, from all initial levels and after any calls, but `h`, `z`, `h` shows other
values than `h`, `h`. -/
theorem C92_squares_do_not_decide (hN : N.Exact) {B : Backend ℂ} (hB : B.Lawful) :
    (∀ {dims : List Nat}, dims ≠ [] → ∀ {init : List Int}, ValidStart (dims.map Int.ofNat) init →
      ∀ (ty : OutputType) {pre : List (Call ℂ)}, (∀ k ∈ pre, k.Valid dims) → ∀ {q : Nat}, q < dims.length →
      dims.getD q 0 = 2 →
      script N B (.list (dims.map Int.ofNat)) init (some ⟨dims, ty, .probability⟩) (pre ++ [.z q none] ++ [.measureAll]) =
        script N B (.list (dims.map Int.ofNat)) init (some ⟨dims, ty, .probability⟩) (pre ++ [.measureAll])) ∧
    script N B (.list [2]) [] (some ⟨[2], .state, .probability⟩) ([.h 0 none] ++ [.z 0 none] ++ [.h 0 none] ++ [.measureAll]) ≠
      script N B (.list [2]) [] (some ⟨[2], .state, .probability⟩) ([.h 0 none] ++ [.h 0 none] ++ [.measureAll]) := by
  constructor
  · intro dims hne init h ty pre hpre q hq hdq
    have hv : (Call.z (R := ℂ) q none).Valid dims := ⟨⟨by omega, by omega⟩, .inl rfl⟩
    obtain ⟨h1, h2⟩ := one_more hN.sized hB hne h (out := some ⟨dims, ty, .probability⟩) (by simp) hpre hv
    rw [List.append_assoc, List.singleton_append, h1, h2]
    congr 1
    have hsq : ∀ l < 2, (N.roots 2).getD l 0 ^ 2 = 1 := fun l hl => hN.root hl
    generalize stateAfter N dims init pre = ψ
    simp only [meaning, Int.toNat_natCast, listing]
    rw [outcome_scale (ψ := ψ) (c := fun s => (N.roots 2).getD (s.getD q 0) 0), List.map_map]
    · apply List.map_congr_left
      intro e he
      have hlt : e.1.getD q 0 < 2 := by
        obtain ⟨s, hs, rfl⟩ := List.mem_map.1 he
        have := fits_getD_lt (mem_states.1 (List.mem_filter.1 hs).1) q hq
        simp only
        omega
      have hs := hsq _ hlt
      have e2 : ((N.roots 2).getD (e.1.getD q 0) 0 * e.2) ^ 2 = e.2 ^ 2 := by rw [mul_pow, hs, one_mul]
      cases ty <;> simp only [Function.comp, format, Option.getD_some, Output.val, e2]
    · intro s hs
      rw [onReg_phases hs hq, hdq]
    · intro s hs h0
      have hlt := fits_getD_lt hs q hq
      rw [hdq] at hlt
      rcases mul_eq_zero.1 h0 with h0 | h0
      · have := hsq _ hlt
        rw [h0] at this
        norm_num at this
      · exact h0
  · have hvs : ValidStart ([2].map Int.ofNat) [] := validStart_of rfl
    have vh : (Call.h (R := ℂ) 0 none).Valid [2] := by simp [Call.Valid, InRange, DimOK]
    have vz : (Call.z (R := ℂ) 0 none).Valid [2] := by simp [Call.Valid, InRange, DimOK]
    have e1 : script N B (.list [2]) [] (some ⟨[2], .state, .probability⟩)
        ([.h 0 none] ++ [.h 0 none] ++ [.measureAll]) = .ok [(.tup [0], 1)] := by
      have := C07_h_twice_qubit hN hB (dims := [2]) (by simp) hvs (out := some ⟨[2], .state, .probability⟩) (pre := [])
        (post := []) (by simp) (by simp) (q := 0) (by simp) rfl
      refine this.trans ((script_valid hN.sized hB (dims := [2]) (by simp) hvs (by simp) (ks := []) (by simp) []).trans ?_)
      have : stateAfter N [2] [] [] = basis [0] := rfl
      rw [this]
      simp only [listing]
      rw [outcome_basis (R := ℂ) (mem_states.1 (by decide))]
      simp [format, Output.val, Output.key]
    obtain ⟨r, e2, e3⟩ := (C93_between_h hN hB (dims := [2]) (q := 0) (by simp) rfl).1 .state [] hvs [] [] (by simp) (by simp)
    have e4 : r = [(.tup [1], 1)] := by
      have := (script_valid hN.sized hB (dims := [2]) (by simp) hvs (out := some ⟨[2], .state, .amplitude⟩) (by simp)
        (ks := [.x 0 none 1]) (by simp [Call.Valid, InRange, DimOK]) []).symm.trans e2
      have hb : stateAfter N [2] [] [.x 0 none 1] = basis [1] := by
        have := (classical_fold (N := N) (dims := [2]) [.x 0 none 1] (by simp [Call.Valid, InRange, DimOK])
          (by simp [Call.Classical]) (startLevels_fits (init := []) hvs)).2
        exact this
      rw [hb] at this
      simp only [listing] at this
      rw [outcome_basis (R := ℂ) (mem_states.1 (by decide))] at this
      have := (Except.ok.inj this).symm
      simpa [format, Output.val, Output.key] using this
    obtain ⟨r', e5, e6⟩ := C13_probability_is_square hN.sized hB (dims := [2]) (by simp) hvs .state
      (ks := [.h 0 none] ++ [.z 0 none] ++ [.h 0 none]) (by simp [vh, vz])
    have e7 : r' = r.map fun e => (e.1, -1 * e.2) := Except.ok.inj (e5.symm.trans e3)
    intro hcon
    have := (e6.symm.trans (hcon.trans e1))
    rw [e7, e4] at this
    simp at this

end

/-! ### Examples -/

/-- Two runs from each list of levels of two qubits show that `cx` twice is nothing; so it is in every circuit. -/
example : SameResults sampleN (numpyBackend ℤ) [2, 2] [.cx 0 1 1, .cx 0 1 1] [] := by
  refine (C92_initial_levels_decide sampleN_sized numpy_lawful (by simp) (by decide) (by simp [Call.Valid, InRange])
    (by simp)).1 fun t ht => ?_
  have : ∀ t ∈ states [2, 2], script sampleN (numpyBackend ℤ) (.list [2, 2]) (asInit t) (some ⟨[2, 2], .state, .amplitude⟩)
      ([.cx 0 1 1, .cx 0 1 1] ++ [.measureAll]) = script sampleN (numpyBackend ℤ) (.list [2, 2]) (asInit t)
        (some ⟨[2, 2], .state, .amplitude⟩) ([] ++ [.measureAll]) := by decide +kernel
  exact this t (mem_states.2 ht)

/-- The run from levels 1, 2 of a qubit and a qutrit is needed. -/
example (s : List Nat) (hs : Fits [2, 3] s) :
    script sampleN (numpyBackend ℤ) (.list [2, 3]) (asInit s) (some ⟨[2, 3], .state, .amplitude⟩)
        [.gate (flipAt ℤ [2, 3] [1, 2]) (.list [0, 1, 1]) none, .measureAll] =
      script sampleN (numpyBackend ℤ) (.list [2, 3]) (asInit s) (some ⟨[2, 3], .state, .amplitude⟩) [.measureAll] ↔
    s ≠ [1, 2] :=
  ((C92_every_run_needed sampleN_sized numpy_lawful (dims := [2, 3]) (by simp) (by decide) (by decide) (t := [1, 2])
    (mem_states.1 (by decide)) (qs := [0, 1, 1]) (by simp [RegArg.Spans]) (by decide)).2 (by decide +kernel)).2 s hs

end QuDiet
