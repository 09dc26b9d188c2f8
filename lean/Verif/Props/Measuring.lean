import Verif.Lemmas.Measuring
import Verif.Props.Measure

/-! # Measuring registers one by one: C57 -/

namespace QuDiet
open Spec

variable {R : Type} [CommRing R] [StarRing R] [DecidableEq R] [UnitaryCheck R]

/-- **C57.** Whatever is called and whatever layers of whatever operators are handed over, if `run` returns a
result then all registers were measured at once, by `measure_all` or by one layer with a measurement at each
position; registers measured one after the other make `run` raise. (Not so with layers that consist of
a lone measurement, see below.) -/
theorem C57_measured_at_once (N : Numerics R) (B : Backend R) {q : RegsArg} {init : List Int}
    {out : Option Output} {c : Circuit R} (hc : Circuit.new q init out = .ok c) (hn : q.dims ≠ [])
    {ds : List (Deed R)} (hlone : ∀ d ∈ ds, ¬ d.lone) {r : List (Key × R)}
    (hr : (c.deeds ds).runAny N B = .ok r) : ∃ d ∈ ds, d.measuresAll q.dims.length := by
  obtain ⟨dims, hd, _, rfl⟩ := new_fresh hc
  have hlen : q.dims.length = dims.length := by rw [hd]; simp
  have hpos : 0 < dims.length := by rw [← hlen]; exact List.length_pos_of_ne_nil hn
  have hT := (Trace.fresh (R := R) (q := q) (dims := dims) (init := init) (out := out)).deeds (ds' := ds)
  rw [List.nil_append] at hT
  rw [hlen]
  by_cases hma : Deed.call .measureAll ∈ ds
  · exact ⟨_, hma, trivial⟩
  have hor : ∀ m ∈ ((freshCircuit q dims init out).deeds ds).flow.moments, (∃ i, MeasAt m i) →
      ∃ ms, .hand ms ∈ ds ∧ ∃ s ∈ ms, (∀ i, MeasAt m i ↔ MeasAt s i) ∧ m.length = s.length := by
    intro m hm hx
    rcases hT.src m hm hx with h | h
    · exact absurd h hma
    · exact h
  set f := ((freshCircuit (R := R) q dims init out).deeds ds).flow with hf
  obtain ⟨pre, last, hlast⟩ : ∃ pre last, f.moments = pre ++ [last] := by
    rcases List.eq_nil_or_concat f.moments with h | ⟨pre, last, h⟩
    · exact absurd h hT.ne
    · exact ⟨pre, last, by rw [h, List.concat_eq_append]⟩
  have hpre : ∀ m ∈ pre, ¬ ∃ i, MeasAt m i := by
    rintro m hm ⟨i, hi⟩
    have hnl : ∀ q, m ≠ [.meas q] := by
      rintro q rfl
      obtain ⟨ms, hms, s, hs, hsm, hsl⟩ := hor [.meas q] (by rw [hlast]; simp [hm]) ⟨i, hi⟩
      obtain ⟨g, rfl⟩ := List.length_eq_one_iff.1 hsl.symm
      have : MeasAt [g] 0 := (hsm 0).1 ⟨.meas q, rfl, rfl⟩
      obtain ⟨g', hg', hgm⟩ := this
      simp only [List.getElem?_cons_zero, Option.some.injEq] at hg'
      subst hg'
      cases g with
      | meas q' => exact hlone _ hms ⟨q', hs⟩
      | _ => simp [GateObj.isMeas] at hgm
    obtain ⟨g, hg, hgm⟩ := hi
    obtain ⟨e, he⟩ := momentExec_meas N B ⟨g, List.mem_of_getElem? hg, hgm⟩
    have he' : momentExecAny N B m = .error e := by rw [momentExecAny_eq N B hnl, he]; rfl
    unfold Circuit.runAny at hr
    rw [← hf, hlast, List.dropLast_concat] at hr
    obtain ⟨e', he''⟩ := flowLoopAny_error N B (ms := pre.reverse) ⟨m, by simpa using hm, e, he'⟩ none
    rw [he''] at hr
    split at hr
    · split at hr <;> cases hr
    · cases hr
  have hall : f.measCount.all (· ≠ 0) = true := by
    unfold Circuit.runAny at hr
    rw [← hf] at hr
    split at hr
    · assumption
    · cases hr
  have hat : ∀ i < dims.length, MeasAt last i := by
    intro i hi
    have hne : f.measCount.getD i 0 ≠ 0 := by
      have hlt : i < f.measCount.length := by rw [hT.len]; exact hi
      rw [List.all_eq_true] at hall
      have := hall f.measCount[i] (List.getElem_mem _)
      simpa [List.getD_eq_getElem?_getD, hlt] using this
    obtain ⟨m, hm, hmi⟩ := hT.cnt i hne
    rw [hlast] at hm
    rcases List.mem_append.1 hm with hm | hm
    · exact absurd ⟨i, hmi⟩ (hpre m hm)
    · rw [List.mem_singleton] at hm
      rw [← hm]
      exact hmi
  obtain ⟨ms, hms, s, hs, hsm, _⟩ := hor last (by rw [hlast]; simp) ⟨0, hat 0 hpos⟩
  exact ⟨_, hms, s, hs, fun i hi => (hsm i).1 (hat i hi)⟩

/-- For circuits built by the methods alone, `runAny` is the `run` that all other theorems are about. -/
theorem C57_runAny_is_run (N : Numerics R) (B : Backend R) {q : RegsArg} {init : List Int}
    {out : Option Output} {c : Circuit R} (hc : Circuit.new q init out = .ok c) (hn : q.dims ≠ [])
    (ks : List (Call R)) : (c.calls ks).runAny N B = ((c.calls ks).run N B).2 := by
  obtain ⟨dims, hd, _, rfl⟩ := new_fresh hc
  have hlen : q.dims.length = dims.length := by rw [hd]; simp
  have hpos : 0 < dims.length := by rw [← hlen]; exact List.length_pos_of_ne_nil hn
  have plain : ∀ {c : Circuit R} {initM layers}, Unmeasured dims Free c initM layers →
      ∀ m ∈ c.flow.moments, ∀ q, m ≠ [.meas q] := by
    rintro c initM layers h m hm q rfl
    rw [h.moments, List.mem_cons] at hm
    rcases hm with rfl | hm
    · have := h.isInit (.meas q) (by simp)
      simp [GateObj.isInit] at this
    · obtain ⟨l, hl, h1⟩ := List.mem_map.1 hm
      have := h.noMeas l hl (.meas q) (by rw [h1]; simp)
      simp [GateObj.isMeas] at this
  apply runAny_eq
  obtain ⟨rest, hks, hrest⟩ := live_append ks
  obtain ⟨⟨layers, hu⟩, f, hf⟩ := calls_any (live ks) live_not_measure (fresh_any (q := q) hpos init out)
  rcases hrest with ⟨rfl, hno⟩ | ⟨r, rfl⟩
  · rw [List.append_nil] at hks
    rw [hks]
    exact fun m hm => plain hu m (List.dropLast_subset _ hm)
  · rw [hks, Circuit.calls_append, Circuit.calls_cons, calls_measured (measureAll_any hu), hu.measure]
    simp only [List.dropLast_concat]
    exact plain hu

/-! ### Examples -/

/-- Two qubits, `x` on the first; the registers are measured one after the other: `run` raises. -/
example : ∃ c : Circuit ℤ, Circuit.new (.list [2, 2]) [] none = .ok c ∧
    ∃ e, (c.deeds [.call (.x 0 none 1), .hand [[.meas 0, .ident 1 2], [.ident 0 2, .meas 1]]]).runAny
      sampleN (numpyBackend ℤ) = .error e := by
  refine ⟨_, new_ok rfl (dims := [2, 2]) (validStart_of rfl) none, ?_⟩
  cases h : Circuit.runAny sampleN (numpyBackend ℤ) ((freshCircuit (.list [2, 2]) [2, 2] [] none).deeds
      [.call (.x 0 none 1), .hand [[.meas 0, .ident 1 2], [.ident 0 2, .meas 1]]]) with
  | error e => exact ⟨e, rfl⟩
  | ok r =>
    obtain ⟨d, hd, hm⟩ := C57_measured_at_once sampleN (numpyBackend ℤ)
      (new_ok rfl (dims := [2, 2]) (validStart_of rfl) none) (by simp [RegsArg.dims])
      (by intro d hd; simp at hd; rcases hd with rfl | rfl <;> simp [Deed.lone]) h
    simp only [List.mem_cons, List.not_mem_nil, or_false] at hd
    rcases hd with rfl | rfl
    · exact hm.elim
    · obtain ⟨m, hm, hall⟩ := hm
      simp only [List.mem_cons, List.not_mem_nil, or_false] at hm
      rcases hm with rfl | rfl
      · have := hall 1 (by simp [RegsArg.dims])
        simp [MeasAt, GateObj.isMeas] at this
      · have := hall 0 (by simp [RegsArg.dims])
        simp [MeasAt, GateObj.isMeas] at this

/-- A layer with a measurement at each position measures the circuit. -/
example : ∃ c : Circuit ℤ, Circuit.new (.list [2, 2]) [] none = .ok c ∧
    (c.deeds [.call (.x 0 none 1), .hand [[.meas 0, .meas 1]]]).runAny sampleN (numpyBackend ℤ)
      = .ok [(.str ['|', '1', '0', '>'], 1)] :=
  ⟨_, new_ok rfl (dims := [2, 2]) (validStart_of rfl) none, by decide +kernel⟩

/-- **C57, the exception.** A layer that consists of a lone measurement of one register of two is passed over,
if it is the newest layer but one; the other register may be measured in a layer of its own. -/
theorem C57_lone_measurement :
    ∃ c : Circuit ℤ, Circuit.new (.list [2, 2]) [] none = .ok c ∧
      (c.deeds [.call (.x 0 none 1), .hand [[.meas 0], [.ident 0 2, .meas 1]]]).runAny sampleN (numpyBackend ℤ)
        = .ok [(.str ['|', '1', '0', '>'], 1)] ∧
      ¬ ∃ d ∈ [Deed.call (.x 0 none 1), .hand [[.meas 0], [.ident 0 2, .meas 1]]], d.measuresAll (R := ℤ) 2 := by
  refine ⟨_, new_ok rfl (dims := [2, 2]) (validStart_of rfl) none, by decide +kernel, ?_⟩
  rintro ⟨d, hd, hm⟩
  simp only [List.mem_cons, List.not_mem_nil, or_false] at hd
  rcases hd with rfl | rfl
  · exact hm
  · obtain ⟨m, hm, hall⟩ := hm
    simp only [List.mem_cons, List.not_mem_nil, or_false] at hm
    rcases hm with rfl | rfl
    · have := hall 1 (by simp)
      simp [MeasAt] at this
    · have := hall 0 (by simp)
      simp [MeasAt, GateObj.isMeas] at this

end QuDiet
