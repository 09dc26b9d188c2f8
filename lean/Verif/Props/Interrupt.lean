import Mathlib.Data.List.GetD
import Verif.Interrupt
import Verif.Lemmas.Poison
import Verif.Lemmas.Measuring
import Verif.Lemmas.Run
import Verif.Props.Measure
import Verif.Props.Sample

/-! # C79: interrupted calls -/

namespace QuDiet
open Spec

variable {R : Type} [CommRing R] [StarRing R] [DecidableEq R] [UnitaryCheck R] {N : Numerics R} {B : Backend R}

/-- A circuit over `n` registers in which no measurement or each is counted. -/
structure Whole (n : Nat) (c : Circuit R) : Prop where
  ne : c.flow.moments ≠ []
  len : c.flow.measCount.length = n
  regs : c.regLength = n
  cnt : (∀ i, c.flow.measCount.getD i 0 = 0) ∨ c.flow.measCount.all (· ≠ 0) = true

/-- A circuit with a layer of measurements that is not the newest or not counted as such. -/
def Broken (c : Circuit R) : Prop :=
  (∃ m ∈ c.flow.moments.dropLast, ∃ i, MeasAt m i) ∨
    ∃ m, c.flow.moments.getLast? = some m ∧ (∃ i, MeasAt m i) ∧ c.flow.measCount.all (· ≠ 0) = false

theorem Broken.ne {c : Circuit R} (h : Broken c) : c.flow.moments ≠ [] := by
  intro e
  rcases h with ⟨m, hm, _⟩ | ⟨m, hm, _⟩
  · simp [e] at hm
  · simp [e] at hm

theorem Broken.run (h : Broken c) : ∃ e, (c.run N B).2 = .error e := by
  have key : ∃ e, c.flow.exec N B = .error e := by
    unfold Flow.exec
    by_cases hall : c.flow.measCount.all (· ≠ 0) = true
    · rw [if_pos hall]
      rcases h with ⟨m, hm, i, g, hg, hi⟩ | ⟨m, _, _, hf⟩
      · split
        · exact ⟨_, rfl⟩
        · exact flowLoop_error (List.mem_reverse.2 hm) (momentExec_meas N B ⟨g, List.mem_of_getElem? hg, hi⟩) none
      · rw [hf] at hall; cases hall
    · rw [if_neg hall]; exact ⟨_, rfl⟩
  obtain ⟨e, he⟩ := key
  refine ⟨e, ?_⟩
  unfold Circuit.run Circuit.runResult
  rw [he]
  rfl

theorem broken_more {c : Circuit R} (h : Broken c) {f : Flow R} {m : List (GateObj R)} {mc : List Nat}
    (hf : f = { moments := c.flow.moments ++ [m], measCount := mc }) : Broken { c with flow := f } := by
  subst hf
  left
  simp only [List.dropLast_concat]
  rcases h with ⟨m', hm', hi⟩ | ⟨m', hm', hi, _⟩
  · exact ⟨m', List.mem_of_mem_dropLast hm', hi⟩
  · exact ⟨m', List.mem_of_getLast? hm', hi⟩

theorem Broken.grow {c : Circuit R} (h : Broken c) {f : Flow R} {m : List (GateObj R)} (hg : Grow c.flow m f) :
    Broken { c with flow := f } := by
  cases hg with
  | same => exact h
  | more hl hc => exact broken_more h rfl
  | @join last last' hl hm hlen =>
    rcases h with ⟨m', hm', hi⟩ | ⟨m', hm', ⟨i, hi⟩, hall⟩
    · left
      simp only [List.dropLast_concat]
      exact ⟨m', hm', hi⟩
    · right
      rw [hl] at hm'
      cases hm'
      exact ⟨last', by simp, ⟨i, (hm i).2 hi⟩, hall⟩

theorem Broken.during {c c' : Circuit R} {t : Task R} (h : Broken c) (hd : c.During N B t c') : Broken c' := by
  cases hd with
  | before => exact h
  | after =>
    cases t with
    | call k =>
      simp only [Circuit.task, Circuit.call]
      cases hk : c.callM k with
      | error e => exact h
      | ok r =>
        obtain ⟨c', b⟩ := r
        obtain ⟨m, f, b', rfl, hp, _⟩ := callM_populates hk
        exact h.grow (populate_grow h.ne hp)
    | run =>
      simp only [Circuit.task, Circuit.run]
      split <;> exact h
  | counting hk hm j => exact broken_more h rfl

theorem Broken.interrupted {c c' : Circuit R} {ts : List (Task R)} (h : Broken c) (hd : c.Interrupted N B ts c') :
    Broken c' := by
  induction hd with
  | nil => exact h
  | cons h1 _ ih => exact ih (h.during h1)

/-- The layer that a call appends. -/
theorem appended {c c' : Circuit R} (hne : c.flow.moments ≠ []) {k : Call R} {b : Bool} {m : List (GateObj R)}
    (h : c.callM k = .ok (c', b)) (hm : c'.flow = c.flow.append m) :
    c' = { c with flow := c.flow.append m } ∧
      ((∀ g ∈ m, g.isMeas = false) ∨ k = .measureAll ∧ m = (List.range c.regLength).map fun i => GateObj.meas i) := by
  have same : ∀ {m' : List (GateObj R)} {f : Flow R}, Grow c.flow m' f → f = c.flow.append m → m' = m := by
    intro m' f hg hf
    have hlen := congrArg (fun f => f.moments.length) hf
    cases hg with
    | same => simp [Flow.append] at hlen
    | more => simpa [Flow.append] using congrArg Flow.moments hf
    | join =>
      have := List.length_pos_of_ne_nil hne
      simp [Flow.append] at hlen
      omega
  by_cases hk : k = .measureAll
  · subst hk
    simp only [Circuit.callM, bind, Except.bind] at h
    split at h
    · cases h
    · rename_i r hr
      cases h
      have := same (populate_grow hne hr) hm
      refine ⟨by rw [← hm], .inr ⟨rfl, this.symm⟩⟩
  · obtain ⟨m', f, b', rfl, hp, hx⟩ := callM_populates h
    have := same (populate_grow hne hp) hm
    subst this
    exact ⟨by rw [← hm], .inl (hx.resolve_right hk)⟩

theorem measAll_measAt {n j i : Nat} (h : MeasAt (((List.range n).map fun i => (GateObj.meas i : GateObj R)).take j) i) :
    i < j := by
  obtain ⟨g, hg, _⟩ := h
  have := (List.getElem?_eq_some_iff.1 hg).1
  rw [List.length_take] at this
  omega

theorem Whole.during {n : Nat} (hn : 0 < n) {c c' : Circuit R} {t : Task R} (h : Whole n c)
    (hd : c.During N B t c') : c' = c ∨ c' = c.task N B t ∨ Broken c' := by
  cases hd with
  | before => exact .inl rfl
  | after => exact .inr (.inl rfl)
  | @counting k c' b m hk hm j =>
    obtain ⟨hc', hx⟩ := appended h.ne hk hm
    have ht : c.task N B (.call k) = { c with flow := c.flow.append m } := by
      simp only [Circuit.task, Circuit.call, hk, hc']
    rcases hx with hx | ⟨rfl, rfl⟩
    · right; left
      rw [ht]
      simp only [Flow.append]
      rw [detectMeas_none _ _ hx, detectMeas_none _ _ fun g hg => hx g (List.mem_of_mem_take hg)]
    · right
      rw [h.regs] at *
      rcases h.cnt with hz | hall
      · by_cases hj : n ≤ j
        · left
          rw [ht]
          simp only [Flow.append]
          rw [List.take_of_length_le (by simpa using hj)]
        · right; right
          refine ⟨_, List.getLast?_concat .., ⟨0, .meas (0 : Nat), by simp [hn], rfl⟩, ?_⟩
          rw [← Bool.not_eq_true]
          intro hall
          obtain ⟨hl, hc⟩ := detectMeas_grow c.flow.measCount
            (((List.range n).map fun i => (GateObj.meas i : GateObj R)).take j)
          have hlt : n - 1 < (detectMeas c.flow.measCount
            (((List.range n).map fun i => (GateObj.meas i : GateObj R)).take j)).length := by rw [hl, h.len]; omega
          have hne : (detectMeas c.flow.measCount
            (((List.range n).map fun i => (GateObj.meas i : GateObj R)).take j)).getD (n - 1) 0 ≠ 0 := by
            rw [List.all_eq_true] at hall
            have := hall _ (List.getElem_mem hlt)
            simpa [List.getD_eq_getElem?_getD, hlt] using this
          rcases hc _ hne with h1 | h1
          · exact h1 (hz _)
          · have := measAll_measAt h1
            omega
      · exfalso
        rcases callM_measured ⟨h.ne, hall⟩ .measureAll with ⟨e, he⟩ | ⟨b', he⟩
        · rw [hk] at he; cases he
        · rw [hk] at he
          cases he
          have := congrArg (fun f => f.moments.length) hm
          simp [Flow.append] at this

theorem Whole.task {n : Nat} {c : Circuit R} (h : Whole n c) (t : Task R) : Whole n (c.task N B t) := by
  cases t with
  | run =>
    simp only [Circuit.task, Circuit.run]
    split <;> exact ⟨h.ne, h.len, h.regs, h.cnt⟩
  | call k =>
    simp only [Circuit.task, Circuit.call]
    cases hk : c.callM k with
    | error e => exact h
    | ok r =>
      obtain ⟨c', b⟩ := r
      rcases h.cnt with hz | hall
      · by_cases hma : k = .measureAll
        · subst hma
          simp only [Circuit.callM, bind, Except.bind] at hk
          split at hk
          · cases hk
          · rename_i r hr
            cases hk
            have hfind : ((List.range c.regLength).map fun i => (GateObj.meas i : GateObj R)).find? (·.isHXZ) = none := by
              rw [List.find?_eq_none]
              intro g hg
              obtain ⟨i, _, rfl⟩ := List.mem_map.1 hg
              simp [GateObj.isHXZ]
            obtain ⟨last, hlast⟩ : ∃ last, c.flow.moments.getLast? = some last := by
              cases hl : c.flow.moments.getLast? with
              | none => exact absurd (List.getLast?_eq_none_iff.1 hl) h.ne
              | some l => exact ⟨l, rfl⟩
            unfold Flow.populate at hr
            rw [hlast] at hr
            simp only at hr
            split at hr
            · cases hr; exact h
            · rw [hfind] at hr
              cases hr
              have hd := detectMeas_all (R := R) c.flow.measCount c.regLength (by rw [h.len, h.regs])
              refine ⟨by simp [Flow.append], ?_, h.regs, .inr ?_⟩
              · simp only [Flow.append]
                rw [hd, List.length_replicate, h.regs]
              · simp only [Flow.append]
                rw [hd]
                simp
        · obtain ⟨m, f, b', rfl, hp, hx⟩ := callM_populates hk
          have hx := hx.resolve_right hma
          have hg := populate_grow h.ne hp
          cases hg with
          | same => exact h
          | join => exact ⟨by simp, h.len, h.regs, h.cnt⟩
          | more hl hc =>
            refine ⟨by simp, hl.trans h.len, h.regs, .inl fun i => ?_⟩
            by_contra hi
            rcases hc i hi with h1 | h1
            · exact h1 (hz i)
            · exact not_measAt hx ⟨i, h1⟩
      · rcases callM_measured ⟨h.ne, hall⟩ k with ⟨e, he⟩ | ⟨b', he⟩
        · rw [hk] at he; cases he
        · rw [hk] at he; cases he; exact h

theorem Whole.fresh {q : RegsArg} {dims : List Nat} {init : List Int} {out : Option Output} :
    Whole dims.length (freshCircuit (R := R) q dims init out) :=
  ⟨by simp [freshCircuit], by simp [freshCircuit], rfl, .inl fun i => by
    simp only [freshCircuit, List.getD_eq_getElem?_getD, List.getElem?_replicate]
    split <;> rfl⟩

theorem whole_or_broken {n : Nat} (hn : 0 < n) {c c' : Circuit R} {ts : List (Task R)} (h : Whole n c)
    (hd : c.Interrupted N B ts c') : (∃ ts', ts'.Sublist ts ∧ c' = c.tasks N B ts') ∨ Broken c' := by
  induction hd with
  | nil => exact .inl ⟨[], .slnil, rfl⟩
  | @cons c c₁ c₂ t ts h1 hs ih =>
    rcases h.during hn h1 with rfl | rfl | hb
    · rcases ih h with ⟨ts', hsub, rfl⟩ | hb
      · exact .inl ⟨ts', hsub.cons _, rfl⟩
      · exact .inr hb
    · rcases ih (h.task t) with ⟨ts', hsub, rfl⟩ | hb
      · exact .inl ⟨t :: ts', hsub.cons_cons _, rfl⟩
      · exact .inr hb
    · exact .inr (hb.interrupted hs)

/-- **C79.** Calls and runs can be interrupted at any point. If `run()` later returns a result, then the circuit is the
one that results when some of the calls are made completely and the others not at all. -/
theorem C79_all_or_nothing {q : RegsArg} {init : List Int} {out : Option Output} {c : Circuit R}
    (hc : Circuit.new q init out = .ok c) (hn : q.dims ≠ []) {ts : List (Task R)} {c' : Circuit R}
    (h : c.Interrupted N B ts c') {r : List (Key × R)} (hr : (c'.run N B).2 = .ok r) :
    ∃ ts', ts'.Sublist ts ∧ c' = c.tasks N B ts' := by
  obtain ⟨dims, hd, _, rfl⟩ := new_fresh hc
  have hpos : 0 < dims.length := by
    have := List.length_pos_of_ne_nil hn
    rw [hd] at this
    simpa using this
  rcases whole_or_broken hpos Whole.fresh h with h | h
  · exact h
  · obtain ⟨e, he⟩ := h.run (N := N) (B := B)
    rw [hr] at he
    cases he

theorem Whole.gate {n : Nat} {c c' : Circuit R} {t : Task R} (h : Whole n c) (ht : t ≠ .call .measureAll)
    (hd : c.During N B t c') : c' = c ∨ c' = c.task N B t := by
  cases hd with
  | before => exact .inl rfl
  | after => exact .inr rfl
  | @counting k c' b m hk hm j =>
    obtain ⟨hc', hx⟩ := appended h.ne hk hm
    have hx := hx.resolve_right fun e => ht (by rw [e.1])
    right
    simp only [Circuit.task, Circuit.call, hk, hc', Flow.append]
    rw [detectMeas_none _ _ hx, detectMeas_none _ _ fun g hg => hx g (List.mem_of_mem_take hg)]

/-- **C79.** Without `measure_all()` among them, the circuit is such a one in any case, and every such circuit is
possible. -/
theorem C79_gates_all_or_nothing {q : RegsArg} {init : List Int} {out : Option Output} {c : Circuit R}
    (hc : Circuit.new q init out = .ok c) {ts : List (Task R)} (hts : .call .measureAll ∉ ts) (c' : Circuit R) :
    c.Interrupted N B ts c' ↔ ∃ ts', ts'.Sublist ts ∧ c' = c.tasks N B ts' := by
  obtain ⟨dims, hd, _, rfl⟩ := new_fresh hc
  have hw := Whole.fresh (R := R) (q := q) (dims := dims) (init := init) (out := out)
  generalize freshCircuit q dims init out = c at hw
  clear hc
  constructor
  · intro h
    induction h with
    | nil => exact ⟨[], .slnil, rfl⟩
    | @cons c c₁ c₂ t ts h1 _ ih =>
      have ht : t ≠ .call .measureAll := fun e => hts (by simp [e])
      have hts' : .call .measureAll ∉ ts := fun e => hts (by simp [e])
      rcases hw.gate ht h1 with rfl | rfl
      · obtain ⟨ts', hsub, rfl⟩ := ih hts' hw
        exact ⟨ts', hsub.cons _, rfl⟩
      · obtain ⟨ts', hsub, rfl⟩ := ih hts' (hw.task t)
        exact ⟨t :: ts', hsub.cons_cons _, rfl⟩
  · rintro ⟨ts', hsub, rfl⟩
    clear hw hts
    induction hsub generalizing c with
    | slnil => exact .nil c
    | cons t _ ih => exact .cons (.before t) (ih _)
    | cons_cons t _ ih => exact .cons (.after t) (ih _)

/-- **C79.** But `measure_all()` can be interrupted such that the circuit is lost: whatever is called afterwards,
including `measure_all()` again, `run()` raises. -/
theorem C79_measurement_lost {q : RegsArg} {init : List Int} {out : Option Output} {c : Circuit R}
    (hc : Circuit.new q init out = .ok c) (hn : q.dims ≠ []) {ts : List (Task R)} (hts : .call .measureAll ∉ ts) :
    ∃ c', (c.tasks N B ts).During N B (.call .measureAll) c' ∧
      ∀ ts' c'', c'.Interrupted N B ts' c'' → ∃ e, (c''.run N B).2 = .error e := by
  obtain ⟨dims, hd, _, rfl⟩ := new_fresh hc
  have hpos : 0 < dims.length := by
    have := List.length_pos_of_ne_nil hn
    rw [hd] at this
    simpa using this
  have key : ∀ (ts : List (Task R)), .call .measureAll ∉ ts → ∀ c : Circuit R, Whole dims.length c →
      (∀ i, c.flow.measCount.getD i 0 = 0) →
      Whole dims.length (c.tasks N B ts) ∧ ∀ i, (c.tasks N B ts).flow.measCount.getD i 0 = 0 := by
    intro ts
    induction ts with
    | nil => intro _ c h hz; exact ⟨h, hz⟩
    | cons t ts ih =>
      intro hts c h hz
      refine ih (fun e => hts (by simp [e])) _ (h.task t) ?_
      cases t with
      | run =>
        simp only [Circuit.task, Circuit.run]
        split <;> exact hz
      | call k =>
        simp only [Circuit.task, Circuit.call]
        cases hk : c.callM k with
        | error e => exact hz
        | ok r =>
          obtain ⟨c', b⟩ := r
          obtain ⟨m, f, b', rfl, hp, hx⟩ := callM_populates hk
          have hx := hx.resolve_right fun e => hts (by simp [e])
          cases populate_grow h.ne hp with
          | same => exact hz
          | join => exact hz
          | more hl hc =>
            intro i
            by_contra hi
            rcases hc i hi with h1 | h1
            · exact h1 (hz i)
            · exact not_measAt hx ⟨i, h1⟩
  obtain ⟨hw, hz⟩ := key ts hts _ (Whole.fresh (q := q) (init := init) (out := out)) fun i => by
    simp only [freshCircuit, List.getD_eq_getElem?_getD, List.getElem?_replicate]
    split <;> rfl
  generalize (freshCircuit q dims init out).tasks N B ts = c at hw hz
  have hall : c.flow.measCount.all (· ≠ 0) = false := by
    rw [← Bool.not_eq_true]
    intro hall
    have hlt : 0 < c.flow.measCount.length := by rw [hw.len]; exact hpos
    rw [List.all_eq_true] at hall
    have h1 := hall _ (List.getElem_mem hlt)
    have h2 := hz 0
    rw [List.getD_eq_getElem _ _ hlt] at h2
    simp [h2] at h1
  have hfind : ((List.range c.regLength).map fun i => (GateObj.meas i : GateObj R)).find? (·.isHXZ) = none := by
    rw [List.find?_eq_none]
    intro g hg
    obtain ⟨i, _, rfl⟩ := List.mem_map.1 hg
    simp [GateObj.isHXZ]
  obtain ⟨last, hlast⟩ : ∃ last, c.flow.moments.getLast? = some last := by
    cases hl : c.flow.moments.getLast? with
    | none => exact absurd (List.getLast?_eq_none_iff.1 hl) hw.ne
    | some l => exact ⟨l, rfl⟩
  have hk : c.callM .measureAll = .ok ({ c with
      flow := c.flow.append ((List.range c.regLength).map fun i => GateObj.meas i) }, true) := by
    simp only [Circuit.callM, Flow.populate, hlast, hall, Bool.false_eq_true, if_false, hfind, bind, Except.bind]
  refine ⟨_, .counting hk rfl 0, fun ts' c'' h => Broken.run (Broken.interrupted (.inr ?_) h)⟩
  refine ⟨_, List.getLast?_concat .., ⟨0, .meas (0 : Nat), by simp [hw.regs, hpos], rfl⟩, ?_⟩
  simpa [detectMeas] using hall

/-- Two qubits, `h` interrupted, `cx` complete, `measure_all` complete: the result is that of `cx` alone or of `h` and
`cx`. -/
example {B : Backend ℤ} {c : Circuit ℤ} (hc : Circuit.new (.list [2, 2]) [] none = .ok c) {c₁ : Circuit ℤ}
    (h : c.During sampleN B (.call (.h 0 none)) c₁) :
    c₁.calls [.cx 0 1 1, .measureAll] = c.calls [.cx 0 1 1, .measureAll] ∨
      c₁.calls [.cx 0 1 1, .measureAll] = c.calls [.h 0 none, .cx 0 1 1, .measureAll] := by
  obtain ⟨ts, hs, rfl⟩ := (C79_gates_all_or_nothing (N := sampleN) (B := B) hc (ts := [.call (.h 0 none)]) (by simp) c₁).1
    (.cons h (.nil _))
  rcases List.sublist_singleton.1 hs with rfl | rfl
  · exact .inl rfl
  · exact .inr rfl

/-- A circuit of two qubits is accepted, and can be lost. -/
example {B : Backend ℤ} : ∃ (c c' : Circuit ℤ), Circuit.new (.list [2, 2]) [] none = .ok c ∧
    (c.calls [.h 0 none]).During sampleN B (.call .measureAll) c' ∧
      ∃ e, ((c'.calls [.x 0 none 1, .measureAll]).run sampleN B).2 = .error e := by
  obtain ⟨c, hc⟩ := (C20_constructor_accepts (R := ℤ) (.list [2, 2]) [] none).2 (by simp [RegsArg.dims])
  obtain ⟨c', h, h'⟩ := C79_measurement_lost (N := sampleN) (B := B) hc (by simp [RegsArg.dims])
    (ts := [.call (.h 0 none)]) (by simp)
  refine ⟨c, c', hc, h, h' [.call (.x 0 none 1), .call .measureAll] _ (.cons (.after _) (.cons (.after _) (.nil _)))⟩

end QuDiet
