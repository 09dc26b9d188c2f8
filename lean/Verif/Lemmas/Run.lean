import Verif.Lemmas.Refine

/-! # The result of `run` after any history of calls -/

namespace QuDiet
open Spec

variable {R : Type} [CommRing R]

theorem Circuit.calls_append (c : Circuit R) (as bs : List (Call R)) :
    c.calls (as ++ bs) = (c.calls as).calls bs := by
  simp [Circuit.calls]

theorem Circuit.calls_cons (c : Circuit R) (k : Call R) (ks : List (Call R)) :
    c.calls (k :: ks) = (c.call k).1.calls ks := rfl

/-! ### Measured circuits -/

theorem detectMeas_all (mc : List Nat) (n : Nat) (hl : mc.length = n) :
    detectMeas mc ((List.range n).map fun i => (GateObj.meas i : GateObj R)) = List.replicate n 1 := by
  unfold detectMeas
  have key : ∀ (m : List (GateObj R)) (pre mc : List Nat), (∀ g ∈ m, g.isMeas = true) →
      mc.length = m.length →
      (m.zipIdx pre.length).foldl (fun mc gi => if gi.1.isMeas then mc.set gi.2 1 else mc) (pre ++ mc)
        = pre ++ List.replicate m.length 1 := by
    intro m
    induction m with
    | nil => intro pre mc _ h; simp at h; simp [h]
    | cons g m ih =>
      intro pre mc hm h
      cases mc with
      | nil => simp at h
      | cons a mc =>
        rw [List.zipIdx_cons, List.foldl_cons, if_pos (hm g (by simp))]
        rw [List.set_append_right _ _ (le_refl _), Nat.sub_self, List.set_cons_zero]
        have := ih (pre ++ [1]) mc (fun g hg => hm g (by simp [hg])) (by simpa using h)
        simp only [List.length_append, List.length_cons, List.length_nil, List.append_assoc,
          List.singleton_append] at this
        rw [this]
        simp [List.replicate_succ]
  have := key ((List.range n).map fun i => (GateObj.meas i : GateObj R)) [] mc
    (by intro g hg; obtain ⟨i, _, rfl⟩ := List.mem_map.1 hg; rfl) (by simp [hl])
  simpa using this

/-- Every register has been measured. -/
def Circuit.Measured (c : Circuit R) : Prop :=
  c.flow.moments ≠ [] ∧ c.flow.measCount.all (· ≠ 0) = true

theorem addMoment_measured {c : Circuit R} (h : c.Measured) (q : RegArg) (g : GateObj R) :
    (∃ e, c.addMoment q g = .error e) ∨ c.addMoment q g = .ok (c, false) := by
  unfold Circuit.addMoment
  cases hm : c.momentData q g with
  | error e => exact .inl ⟨e, rfl⟩
  | ok m =>
    right
    simp only [bind, Except.bind, populate_measured c.flow m h.1 h.2]

theorem callM_measured {c : Circuit R} (h : c.Measured) (k : Call R) :
    (∃ e, c.callM k = .error e) ∨ ∃ b, c.callM k = .ok (c, b) := by
  have one : ∀ {q : Int} {k : Option Nat} {f : Nat → GateObj R},
      (∃ e, (do c.validate q k; let d ← c.gateDims q k; c.addMoment (.int q) (f d)) = .error e) ∨
      ∃ b, (do c.validate q k; let d ← c.gateDims q k; c.addMoment (.int q) (f d)) = .ok (c, b) := by
    intro q k f
    cases hv : c.validate q k with
    | error e => exact .inl ⟨e, rfl⟩
    | ok u =>
      cases hd : c.gateDims q k with
      | error e => exact .inl ⟨e, rfl⟩
      | ok d =>
        rcases addMoment_measured h (.int q) (f d) with ⟨e, he⟩ | he
        · exact .inl ⟨e, he⟩
        · exact .inr ⟨_, he⟩
  cases k with
  | h q k => exact one
  | x q k p => exact one
  | z q k => exact one
  | cx ctl tgt p =>
    rcases addMoment_measured h (.list [ctl, tgt]) (.cx (if ctl < tgt then pySlice c.regDims ctl (tgt + 1)
      else pySlice c.regDims tgt (ctl + 1)) ctl tgt p) with ⟨e, he⟩ | he
    · exact .inl ⟨e, he⟩
    · exact .inr ⟨_, he⟩
  | toffoli cs t p =>
    simp only [Circuit.callM]
    cases hm : toffoliDm (R := R) cs t p c.qregs.seq with
    | error e => exact .inl ⟨e, rfl⟩
    | ok r =>
      obtain ⟨U, lb, ub, ds⟩ := r
      simp only [bind, Except.bind]
      rcases addMoment_measured h (.list (pyRange lb (ub + 1)))
        (.toffoli cs t (pyRange lb (ub + 1)) ds U p) with ⟨e, he⟩ | he
      · exact .inl ⟨e, by rw [he]⟩
      · exact .inr ⟨true, by rw [he]⟩
  | gate U q k =>
    cases q with
    | int q => exact one
    | list qs =>
      simp only [Circuit.callM]
      cases hv : (qs.forM fun q => c.validate q k : PyM Unit) with
      | error e => exact .inl ⟨e, rfl⟩
      | ok u =>
        have gen : ∀ x : PyM DimArg,
            (∃ e, (do let d ← x; c.addMoment (.list qs) (.arb (.list qs) d U)) = .error e) ∨
            ∃ b, (do let d ← x; c.addMoment (.list qs) (.arb (.list qs) d U)) = .ok (c, b) := by
          intro x
          cases x with
          | error e => exact .inl ⟨e, rfl⟩
          | ok d =>
            rcases addMoment_measured h (.list qs) (.arb (.list qs) d U) with ⟨e, he⟩ | he
            · exact .inl ⟨e, he⟩
            · exact .inr ⟨_, he⟩
        rcases k with _ | _ | k
        · cases hx : qs.mapM (pyGet c.regDims) with
          | error e => exact .inl ⟨e, rfl⟩
          | ok ds => exact gen (.ok (.list ds))
        · cases hx : qs.mapM (pyGet c.regDims) with
          | error e => exact .inl ⟨e, rfl⟩
          | ok ds => exact gen (.ok (.list ds))
        · exact gen (.ok (.int (k + 1)))
  | measure q => exact .inl ⟨_, rfl⟩
  | measureAll =>
    right
    refine ⟨true, ?_⟩
    simp only [Circuit.callM, populate_measured c.flow _ h.1 h.2, bind, Except.bind]

theorem call_measured {c : Circuit R} (h : c.Measured) (k : Call R) : (c.call k).1 = c := by
  unfold Circuit.call
  rcases callM_measured h k with ⟨e, he⟩ | ⟨b, he⟩ <;> rw [he]

theorem calls_measured {c : Circuit R} (h : c.Measured) (ks : List (Call R)) : c.calls ks = c := by
  induction ks with
  | nil => rfl
  | cons k ks ih => rw [Circuit.calls_cons, call_measured h, ih]

theorem Unmeasured.measure {β : Type} {dims : List Nat} {P : Nat → Nat → GateObj R → β → Prop} {c : Circuit R}
    {initM : List (GateObj R)} {layers : List (List (GateObj R) × List β)}
    (h : Unmeasured dims P c initM layers) :
    c.call .measureAll = ({ c with flow :=
      { moments := c.flow.moments ++ [(List.range dims.length).map .meas],
        measCount := List.replicate dims.length 1 } }, .ok true) := by
  have hl : ∃ last, c.flow.moments.getLast? = some last := by
    rcases h.last with ⟨_, h⟩ | ⟨_, l, _, h⟩
    · exact ⟨_, h⟩
    · exact ⟨_, h⟩
  obtain ⟨last, hl⟩ := hl
  have hf : ((List.range c.regLength).map fun i => (GateObj.meas i : GateObj R)).find? (·.isHXZ) = none := by
    rw [List.find?_eq_none]
    intro g hg
    obtain ⟨i, _, rfl⟩ := List.mem_map.1 hg
    simp [GateObj.isHXZ]
  unfold Circuit.call
  simp only [Circuit.callM, populate_plain _ _ _ hl h.notAll hf, bind, Except.bind, Flow.append]
  rw [h.regLength, detectMeas_all _ _ (by rw [h.meas]; simp)]

theorem measured_of {dims : List Nat} (hpos : 0 < dims.length) {c : Circuit R}
    (hm : c.flow.moments ≠ []) (h : c.flow.measCount = List.replicate dims.length 1) : c.Measured :=
  ⟨hm, by rw [h]; simp⟩

/-! ### Histories -/

theorem live_append (ks : List (Call R)) : ∃ rest, ks = live ks ++ rest ∧
    ((rest = [] ∧ ∀ k ∈ ks, k.isMeasureAll = false) ∨
      ∃ r, rest = .measureAll :: r) := by
  induction ks with
  | nil => exact ⟨[], rfl, .inl ⟨rfl, by simp⟩⟩
  | cons k ks ih =>
    by_cases hk : k.isMeasureAll = true
    · refine ⟨k :: ks, ?_, .inr ⟨ks, ?_⟩⟩
      · simp [live, hk]
      · cases k <;> simp_all [Call.isMeasureAll]
    · obtain ⟨rest, h1, h2⟩ := ih
      have hl : live (k :: ks) = k :: live ks := by simp [live, hk]
      refine ⟨rest, by rw [hl, List.cons_append, ← h1], ?_⟩
      rcases h2 with ⟨h2, h3⟩ | h2
      · left
        refine ⟨h2, ?_⟩
        intro k' hk'
        rcases List.mem_cons.1 hk' with rfl | hk'
        · simpa using hk
        · exact h3 k' hk'
      · exact .inr h2

theorem live_not_measure {ks : List (Call R)} : ∀ k ∈ live ks, k.isMeasureAll = false := by
  induction ks with
  | nil => simp [live]
  | cons k ks ih =>
    by_cases hk : k.isMeasureAll = true
    · simp [live, hk]
    · have hl : live (k :: ks) = k :: live ks := by simp [live, hk]
      rw [hl]
      intro k' hk'
      rcases List.mem_cons.1 hk' with rfl | hk'
      · simpa using hk
      · exact ih k' hk'

section
variable [StarRing R] [DecidableEq R] [UnitaryCheck R]

theorem Inv.calls [Nontrivial R] {N : Numerics R} {dims : List Nat} {ψ0 : State R} {initM : List (GateObj R)}
    (hN : N.Sized) (h2 : ∀ d ∈ dims, 2 ≤ d) {c : Circuit R} {ks ks' : List (Call R)}
    {layers : List (List (GateObj R) × List (Option (Block R)))}
    (hI : Inv N dims ψ0 c initM ks' layers)
    (hm : ∀ k ∈ ks, k.isMeasureAll = false) (hreg : ∀ k ∈ ks, Regular dims k)
    (hq : (∃ cs t p, .toffoli cs t p ∈ ks) → c.qregs.seq = dims) :
    ∃ layers', Inv N dims ψ0 (c.calls ks) initM (ks' ++ ks) layers' ∧
      ∃ f, c.calls ks = { c with flow := f } := by
  induction ks generalizing c ks' layers with
  | nil => exact ⟨layers, by simpa [Circuit.calls] using hI, c.flow, rfl⟩
  | cons k ks ih =>
    obtain ⟨l1, h1, ⟨f1, hf1⟩, _⟩ := hI.call hN h2 (hm k (by simp)) (hreg k (by simp))
      (fun ⟨cs, t, p, h⟩ => hq ⟨cs, t, p, by simp [h]⟩)
    obtain ⟨l2, h3, f2, hf2⟩ := ih h1 (fun k hk => hm k (by simp [hk])) (fun k hk => hreg k (by simp [hk]))
      (by rintro ⟨cs, t, p, h⟩; rw [hf1]; exact hq ⟨cs, t, p, by simp [h]⟩)
    refine ⟨l2, ?_, f2, ?_⟩
    · rw [Circuit.calls_cons]
      simpa using h3
    · rw [Circuit.calls_cons, hf2, hf1]

/-- A freshly constructed circuit. -/
theorem fresh_inv (N : Numerics R) {q : RegsArg} {dims : List Nat} {init : List Int} (out : Option Output)
    (hpos : 0 < dims.length) :
    Inv N dims (basis (startLevels dims init)) (freshCircuit q dims init out) (initOps dims init) [] [] := by
  refine ⟨⟨hpos, rfl, rfl, rfl, rfl, by simp, ?_, by simp⟩, by simp, ?_⟩
  · exact fun g hg => (initOps_isInit dims init g hg).1
  · intro _
    exact ⟨by simp, EqOn.rfl'⟩

/-- What `exec` computes after a history of calls. -/
theorem exec_total [Nontrivial R] {N : Numerics R} (hN : N.Sized) {q : RegsArg} {dims : List Nat}
    (hpos : 0 < dims.length) {init : List Int} (h : ValidStart (dims.map Int.ofNat) init)
    (out : Option Output) (ks : List (Call R)) (hreg : ∀ k ∈ live ks, Regular dims k)
    (hq : (∃ cs t p, .toffoli cs t p ∈ live ks) → q.toRegs.seq = dims) :
    let c := (freshCircuit (R := R) q dims init out).calls ks
    c.output = (freshCircuit (R := R) q dims init out).output ∧
    ((∀ k ∈ ks, k.isMeasureAll = false) → c.flow.exec N (numpyBackend R) = .error .assertion) ∧
    (.measureAll ∈ ks → (∃ k ∈ live ks, fate dims k = .broken) →
      ∃ e, c.flow.exec N (numpyBackend R) = .error e) ∧
    (.measureAll ∈ ks → (∀ k ∈ live ks, fate dims k ≠ .broken) →
      ∃ w : Mat R, c.flow.exec N (numpyBackend R) = .ok (some w) ∧
        IsVec dims w (finalState N dims (startLevels dims init) (live ks))) := by
  intro c
  have h2 : ∀ d ∈ dims, 2 ≤ d := by
    intro d hd
    have := h.1 (Int.ofNat d) (List.mem_map.2 ⟨d, hd, rfl⟩)
    simp at this
    omega
  obtain ⟨rest, hks, hrest⟩ := live_append ks
  obtain ⟨layers, hI, f, hf⟩ := (fresh_inv N (q := q) (init := init) out hpos).calls hN h2
    live_not_measure hreg hq
  rw [List.nil_append] at hI
  obtain ⟨hfit, v, hv, hvec⟩ := initOps_prepares N h hpos
  rcases hrest with ⟨rfl, hno⟩ | ⟨r, rfl⟩
  · have hc : c = (freshCircuit q dims init out).calls (live ks) := by
      simp only [c]
      rw [List.append_nil] at hks
      rw [← hks]
    refine ⟨by rw [hc, hf], ?_, ?_, ?_⟩
    · intro _
      rw [hc]
      unfold Flow.exec
      rw [hI.unm.notAll]
      rfl
    · intro hm
      have := hno _ hm
      simp [Call.isMeasureAll] at this
    · intro hm
      have := hno _ hm
      simp [Call.isMeasureAll] at this
  · have hmeas := hI.unm.measure
    set c1 := (freshCircuit q dims init out).calls (live ks) with hc1
    have hmm : c.Measured ∧ c.flow.moments = initOps dims init :: layers.map Prod.fst ++
        [(List.range dims.length).map .meas] ∧ c.output = c1.output := by
      have : c = (c1.call .measureAll).1.calls r := by
        simp only [c]
        conv_lhs => rw [hks]
        rw [Circuit.calls_append, Circuit.calls_cons]
      rw [hmeas] at this
      have hM : (⟨c1.qregs, c1.regLength, c1.regDims,
          { moments := c1.flow.moments ++ [(List.range dims.length).map .meas],
            measCount := List.replicate dims.length 1 }, c1.output, c1.circuitOutput⟩ : Circuit R).Measured :=
        measured_of hpos (by simp) rfl
      rw [calls_measured hM] at this
      rw [this]
      refine ⟨hM, ?_, rfl⟩
      simp only [hI.unm.moments]
    obtain ⟨hM, hmom, hout⟩ := hmm
    have hmem : Call.measureAll ∈ ks := by rw [hks]; simp
    have hexec : c.flow.exec N (numpyBackend R) =
        flowLoop N (numpyBackend R) ((layers.map Prod.fst).reverse ++ [initOps dims init]) none := by
      unfold Flow.exec
      rw [hM.2]
      simp only [if_true]
      rw [if_neg (by simp [hmom]), hmom, List.dropLast_concat, List.reverse_cons]
    refine ⟨by rw [hout, hf], ?_, ?_, ?_⟩
    · intro hno
      have := hno _ hmem
      simp [Call.isMeasureAll] at this
    · intro _ hb
      obtain ⟨l, hl, hn⟩ := hI.bad hb
      rw [hexec]
      apply flowLoop_bad hv hvec.1 _ _ l.1 (by simp only [List.mem_reverse, List.mem_map]; exact ⟨l, hl, rfl⟩)
      · intro M hM
        rcases (hI.unm.lay l hl).small h2 with ⟨e, he⟩ | ⟨M', hM', _, _, hlt⟩
        · rw [he] at hM; cases hM
        · rw [hM'] at hM
          injection hM with hM
          subst hM
          have := hlt hn
          omega
      · intro m hm M hM
        simp only [List.mem_reverse, List.mem_map] at hm
        obtain ⟨l', hl', rfl⟩ := hm
        rcases (hI.unm.lay l' hl').small h2 with ⟨e, he⟩ | ⟨M', hM', hsq, _, _⟩
        · rw [he] at hM; cases hM
        · rw [hM'] at hM
          injection hM with hM
          subst hM
          exact hsq
    · intro _ hg
      obtain ⟨hgood, heq⟩ := hI.good hg
      have hall : List.Forall₂ (fun m F => ∃ A : Mat R, momentExec N (numpyBackend R) m = .ok A ∧ ActsAs dims A F)
          (layers.map Prod.fst).reverse (layers.map fun l => layerAct l.2).reverse := by
        rw [← List.map_reverse, ← List.map_reverse, List.forall₂_map_left_iff, List.forall₂_map_right_iff,
          List.forall₂_same]
        intro l hl
        rw [List.mem_reverse] at hl
        exact (hI.unm.lay l hl).exec hpos (hgood l hl)
      obtain ⟨w, hw, hw'⟩ := flowLoop_good_none hv hvec hall
      refine ⟨w, by rw [hexec, hw], hw'.1, hw'.2.1, ?_⟩
      intro s hs
      rw [hw'.2.2 s hs, List.foldr_reverse, List.foldl_map]
      exact heq s hs

/-! ### The printed result -/

theorem filter_eq_flatMap {α β : Type} (p : α → Bool) (f : α → β) (l : List α) :
    (l.flatMap fun a => if p a then [f a] else []) = (l.filter p).map f := by
  induction l with
  | nil => rfl
  | cons a l ih =>
    rw [List.flatMap_cons, ih]
    by_cases h : p a = true
    · simp [h]
    · simp [h]

theorem nonzeroRows_vec {dims : List Nat} {w : Mat R} {ψ : State R} (h : IsVec dims w ψ) :
    nonzeroRows w = ((states dims).filter fun s => ψ s ≠ 0).map (value dims) := by
  unfold nonzeroRows
  rw [h.1, h.2.1, ← map_value_states, List.flatMap_map, ← filter_eq_flatMap]
  apply List.flatMap_congr
  intro s hs
  have := h.2.2 s (mem_states.1 hs)
  by_cases hz : ψ s = 0
  · simp [this, hz]
  · simp [this, hz]

theorem output_vec {dims : List Nat} {w : Mat R} {ψ : State R} (h : IsVec dims w ψ) (o : Output)
    (ho : o.base = dims) :
    o.call w = .ok ((outcome dims ψ).map fun e => (o.key e.1, o.val e.2)) := by
  unfold Output.call
  rw [nonzeroRows_vec h, List.mapM_map, outcome, List.map_map]
  apply mapM_ok
  intro s hs
  have hs' := mem_states.1 (List.mem_of_mem_filter hs)
  simp only [Function.comp, ho, nbaseToBin_value hs', h.2.2 s hs']

end

end QuDiet
