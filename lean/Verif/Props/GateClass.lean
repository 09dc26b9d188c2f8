import Verif.GateClass
import Verif.Lemmas.Moments
import Verif.Props.Sample

/-! # C76: `gate` with the classes of the library -/

namespace QuDiet
open Spec

variable {R : Type} [CommRing R] [StarRing R] [DecidableEq R] [UnitaryCheck R]

/-- Specification: the calls that a statement stands for. `gate(IGate, …)` stands for none, and so do the classes that
`gate` cannot construct. -/
def Step.asCalls : Step R → List (Call R)
  | .call k => [k]
  | .gateOf .h q dims => [.h q dims]
  | .gateOf .z q dims => [.z q dims]
  | .gateOf _ _ _ => []

/-- Valid statements: valid calls; an existing register and its own dimension if one is given. -/
def Step.Valid (dims : List Nat) : Step R → Prop
  | .call k => k.Valid dims
  | .gateOf _ q k => InRange dims q ∧ DimOK dims q k

/-- What each statement returns: `True`, or `TypeError` for the classes that `gate` cannot construct. -/
def Step.answer : Step R → PyM Bool
  | .gateOf .x _ _ => .error .type
  | .gateOf .cx _ _ => .error .type
  | .gateOf .toffoli _ _ => .error .type
  | .gateOf .measurement _ _ => .error .type
  | _ => .ok true

variable {N : Numerics R} {dims : List Nat} {ψ0 : State R} {c : Circuit R} {initM : List (GateObj R)}
  {ks : List (Call R)} {layers : List (List (GateObj R) × List (Option (Block R)))}

omit [StarRing R] [DecidableEq R] [UnitaryCheck R] in
theorem layout_ident {q : Nat} (hq : q < dims.length) :
    layout (R := R) dims q q (.ident q (dims.getD q 0)) = idle dims 0 dims.length := by
  have e1 : min dims.length (q : Int).toNat = q := by simp; omega
  have e2 : min dims.length ((q : Int) + 1).toNat = q + 1 := by omega
  rw [layout, idle_eq]
  simp only [e1, e2]
  rw [if_pos (by omega)]
  have : ∀ a, a ≤ q → ids (R := R) dims a q ++ .ident q (dims.getD q 0) :: ids dims (q + 1) dims.length =
      ids dims a dims.length := by
    intro a ha
    obtain ⟨k, rfl⟩ : ∃ k, q = a + k := ⟨q - a, by omega⟩
    clear e1 e2
    induction k generalizing a with
    | zero => rw [Nat.add_zero, ids_self, List.nil_append, ← ids_cons (by omega)]
    | succ k ih =>
      rw [ids_cons (a := a) (b := a + (k + 1)) (by omega), ids_cons (a := a) (b := dims.length) (by omega), List.cons_append]
      congr 1
      have := ih (a + 1) (by rw [show a + 1 + k = a + (k + 1) by omega]; exact hq) (by omega)
      rwa [show a + 1 + k = a + (k + 1) by omega] at this
  exact this 0 (Nat.zero_le _)

/-- An identity gate appends a layer without gates. -/
theorem gateOf_ident [Nontrivial R] (hN : N.Sized) (h2 : ∀ d ∈ dims, 2 ≤ d) (hI : Inv N dims ψ0 c initM ks layers)
    (hk : ∀ k ∈ ks, k.Valid dims) {q : Int} {k : Option Nat} (hq : InRange dims q) (hd : DimOK dims q k) :
    ∃ layers' m, c.step (.gateOf .i q k) = ({ c with flow := { c.flow with moments := c.flow.moments ++ [m] } }, .ok true) ∧
      (∀ g ∈ m, g.isMeas = false) ∧
      Inv N dims ψ0 (c.step (.gateOf .i q k)).1 initM ks layers' := by
  have hpos := hI.unm.npos
  obtain ⟨m, bs, hm, hL, hnone, hmeas, hident, hfind, hact⟩ :=
    layerFrom_ok (ks := []) hN h2 hpos (by simp) (Nat.zero_le _) (by trivial)
  simp only [List.take_zero, idBlocks, List.map_nil, List.nil_append] at hact
  injection hm with hm
  obtain ⟨r, rfl⟩ : ∃ r : Nat, q = r := ⟨q.toNat, (Int.toNat_of_nonneg hq.1).symm⟩
  have hr : r < dims.length := by have := hq.2; omega
  have hval : c.validate r k = .ok () ∧ c.gateDims r k = .ok (dims.getD r 0) := by
    have hg : pyGet dims (r : Int) = .ok (dims.getD r 0) := by
      rw [pyGet_ok (by omega) (by omega)]
      simp [List.getD_eq_getElem?_getD, hr]
    have hb : ¬ (r : Int) > (c.regLength : Int) - 1 := by rw [hI.unm.regLength]; omega
    have hdim : 2 ≤ dims.getD r 0 := by
      rw [List.getD_eq_getElem?_getD, List.getElem?_eq_getElem hr]
      exact h2 _ (List.getElem_mem hr)
    unfold Circuit.validate Circuit.gateDims
    rw [if_neg hb, hI.unm.regDims]
    rcases hd with rfl | rfl | rfl
    · exact ⟨rfl, hg⟩
    · exact ⟨rfl, hg⟩
    · rw [Int.toNat_natCast]
      obtain ⟨d, hd⟩ : ∃ d, dims.getD r 0 = d + 1 := ⟨dims.getD r 0 - 1, by omega⟩
      rw [hd] at hg ⊢
      simp [hg]
  have hdata : c.momentData (.int r) (.ident r (dims.getD r 0)) = .ok m := by
    have := momentData_eq c (by rw [hI.unm.regLength, hI.unm.regDims]) (q := .int r) (lb := r) (ub := r) ⟨rfl, rfl⟩ (le_refl _)
      (.ident r (dims.getD r 0))
    rw [this, hI.unm.regDims, layout_ident hr, hm]
  have hf1 : m.find? (·.isHXZ) = none := by
    rw [← hm, idle_eq]
    exact find_ids_none _ _ _
  obtain ⟨last, hl⟩ : ∃ last, c.flow.moments.getLast? = some last := by
    rw [hI.unm.moments]
    exact ⟨_, List.getLast?_eq_some_getLast (by simp)⟩
  have hpop : c.flow.populate m = .ok ({ c.flow with moments := c.flow.moments ++ [m] }, true) := by
    rw [populate_plain c.flow m last hl hI.unm.notAll hf1, Flow.append, detectMeas_none _ _ hmeas]
  have hstep : c.step (.gateOf .i r k) =
      ({ c with flow := { c.flow with moments := c.flow.moments ++ [m] } }, .ok true) := by
    simp only [Circuit.step, Circuit.gateOf, hval.1, hval.2, bind, Except.bind, Int.toNat_natCast, Circuit.addMoment, hdata, hpop]
  refine ⟨layers ++ [(m, bs)], m, hstep, hmeas, ?_⟩
  rw [hstep]
  have := hI.added hN h2 (L := []) (by simp) hk hL hnone hmeas hact
  rw [List.append_nil] at this
  exact this

omit [StarRing R] [DecidableEq R] [UnitaryCheck R] in
/-- `gate(HGate, q)` is `h(q)`, `gate(ZGate, q)` is `z(q)`, whatever the arguments and the circuit. -/
theorem C76_gate_is_method (c : Circuit R) (q : Int) (k : Option Nat) :
    c.step (.gateOf .h q k) = c.call (.h q k) ∧ c.step (.gateOf .z q k) = c.call (.z q k) :=
  ⟨rfl, rfl⟩

omit [StarRing R] [DecidableEq R] [UnitaryCheck R] in
/-- `gate` with `XGate`, `CXGate`, `Toffoli` or `Measurement` always raises and changes nothing. If
register and dimension are such that `gate(HGate, q)` would work, the exception is a `TypeError`. -/
theorem C76_gate_raises (c : Circuit R) {cls : GateClass} (h : cls ∈ [.x, .cx, .toffoli, .measurement]) (q : Int)
    (k : Option Nat) : (∃ e, (c.step (.gateOf cls q k)).2 = .error e) ∧ (c.step (.gateOf cls q k)).1 = c ∧
      ∀ b, (c.step (.gateOf .h q k)).2 = .ok b → (c.step (.gateOf cls q k)).2 = .error .type := by
  have key : ∃ e, c.gateOf cls q k = .error e := by
    unfold Circuit.gateOf
    cases c.validate q k with
    | error e => exact ⟨e, rfl⟩
    | ok u =>
      cases c.gateDims q k with
      | error e => exact ⟨e, rfl⟩
      | ok d =>
        simp only [List.mem_cons, List.not_mem_nil, or_false] at h
        rcases h with rfl | rfl | rfl | rfl <;> exact ⟨_, rfl⟩
  obtain ⟨e, he⟩ := key
  have hst : c.step (.gateOf cls q k) = (c, .error e) := by rw [Circuit.step, he]
  rw [hst]
  refine ⟨⟨e, rfl⟩, rfl, fun b hb => ?_⟩
  simp only [Circuit.step, Circuit.gateOf] at hb he
  cases hv : c.validate q k with
  | error e' => simp [hv, bind, Except.bind] at hb
  | ok u =>
    cases hd : c.gateDims q k with
    | error e' => simp [hv, hd, bind, Except.bind] at hb
    | ok d =>
      simp only [hv, hd, bind, Except.bind] at he
      simp only [List.mem_cons, List.not_mem_nil, or_false] at h
      rcases h with rfl | rfl | rfl | rfl <;> (cases he; rfl)

theorem steps_inv [Nontrivial R] (hN : N.Sized) (h2 : ∀ d ∈ dims, 2 ≤ d) (hI : Inv N dims ψ0 c initM ks layers)
    (hk : ∀ k ∈ ks, k.Valid dims) (hq : c.qregs.seq = dims) {ss : List (Step R)} (hss : ∀ s ∈ ss, s.Valid dims) :
    ∃ layers', Inv N dims ψ0 (c.steps ss) initM (ks ++ ss.flatMap Step.asCalls) layers' ∧
      (∃ f, c.steps ss = { c with flow := f }) := by
  induction ss generalizing c ks layers with
  | nil => exact ⟨layers, by simpa [Circuit.steps] using hI, c.flow, rfl⟩
  | cons s ss ih =>
    have hs := hss s (by simp)
    have one : ∃ layers', Inv N dims ψ0 (c.step s).1 initM (ks ++ s.asCalls) layers' ∧
        (∃ f, (c.step s).1 = { c with flow := f }) ∧ ∀ k ∈ s.asCalls, k.Valid dims := by
      have callCase : ∀ k : Call R, k.Valid dims → ∃ layers', Inv N dims ψ0 (c.call k).1 initM (ks ++ [k]) layers' ∧
          (∃ f, (c.call k).1 = { c with flow := f }) ∧ ∀ k' ∈ [k], k'.Valid dims := by
        intro k hkv
        obtain ⟨l, h1, h3, _⟩ := hI.call hN h2 hkv.not_measureAll (by unfold Regular; rw [hkv.applied h2]; simp)
          (fun _ => hq)
        exact ⟨l, h1, h3, by simpa using hkv⟩
      have raiseCase : ∀ cls ∈ [GateClass.x, .cx, .toffoli, .measurement], ∀ q k,
          ∃ layers', Inv N dims ψ0 (c.step (.gateOf cls q k)).1 initM (ks ++ []) layers' ∧
          (∃ f, (c.step (.gateOf cls q k)).1 = { c with flow := f }) ∧ ∀ k' ∈ ([] : List (Call R)), k'.Valid dims := by
        intro cls hc q k
        rw [(C76_gate_raises c hc q k).2.1, List.append_nil]
        exact ⟨layers, hI, ⟨c.flow, rfl⟩, by simp⟩
      cases s with
      | call k => exact callCase k hs
      | gateOf cls q k =>
        cases cls with
        | h => exact callCase (.h q k) hs
        | z => exact callCase (.z q k) hs
        | i =>
          obtain ⟨l, m, h1, _, h3⟩ := gateOf_ident hN h2 hI hk hs.1 hs.2
          refine ⟨l, by simpa [Step.asCalls] using h3, ⟨_, by rw [h1]⟩, by simp [Step.asCalls]⟩
        | x => exact raiseCase .x (by simp) q k
        | cx => exact raiseCase .cx (by simp) q k
        | toffoli => exact raiseCase .toffoli (by simp) q k
        | measurement => exact raiseCase .measurement (by simp) q k
    obtain ⟨l1, h1, ⟨f1, hf1⟩, hv1⟩ := one
    obtain ⟨l2, h3, f2, hf2⟩ := ih h1 (by
      intro k hk'
      rcases List.mem_append.1 hk' with h | h
      · exact hk k h
      · exact hv1 k h) (by rw [hf1]; exact hq) fun s hs => hss s (by simp [hs])
    refine ⟨l2, ?_, f2, ?_⟩
    · rw [List.flatMap_cons, ← List.append_assoc]
      exact h3
    · have : c.steps (s :: ss) = (c.step s).1.steps ss := rfl
      rw [this, hf2, hf1]

theorem asCalls_valid {ss : List (Step R)} (hss : ∀ s ∈ ss, s.Valid dims) : ∀ k ∈ ss.flatMap Step.asCalls, k.Valid dims := by
  intro k hk
  obtain ⟨s, hs, hk⟩ := List.mem_flatMap.1 hk
  have hv := hss s hs
  cases s with
  | call k' =>
    simp only [Step.asCalls, List.mem_singleton] at hk
    subst hk
    exact hv
  | gateOf cls q k' =>
    cases cls <;> simp only [Step.asCalls, List.mem_singleton, List.not_mem_nil] at hk
    · subst hk; exact hv
    · subst hk; exact hv

/-- **C76.** A script that mixes calls with `gate` on classes of the library gives the result of the calls that its
statements stand for: identity gates, wherever they are, are invisible in the result of `run`. -/
theorem C76_gate_classes [Nontrivial R] (hN : N.Sized) {B : Backend R} (hB : B.Lawful) (hne : dims ≠ [])
    {init : List Int} (h : ValidStart (dims.map Int.ofNat) init) {out : Option Output} (ho : ∀ o ∈ out, o.base = dims)
    {ss : List (Step R)} (hss : ∀ s ∈ ss, s.Valid dims) :
    stepScript N B (.list (dims.map Int.ofNat)) init out ss =
      script N B (.list (dims.map Int.ofNat)) init out (ss.flatMap Step.asCalls ++ [.measureAll]) := by
  have h2 := ge_two_of_valid h
  have hpos := List.length_pos_of_ne_nil hne
  obtain ⟨layers, hI, f, hf⟩ := steps_inv (ss := ss) hN h2 (fresh_inv N (q := .list (dims.map Int.ofNat)) out hpos)
    (by simp) (by simp only [freshCircuit, RegsArg.toRegs, Regs.seq, List.map_map]; exact List.map_id'' (fun _ => rfl) dims) hss
  rw [List.nil_append] at hI
  have hval := asCalls_valid hss
  obtain ⟨w, hw, hvec, hout⟩ := hI.run_measured hN h2 h fun k hk => by rw [(hval k hk).applied h2]; simp
  rw [script_valid hN hB hne h ho hval []]
  unfold stepScript
  rw [new_ok rfl h out]
  simp only [bind, Except.bind]
  set c := (freshCircuit (.list (dims.map Int.ofNat)) dims init out).steps ss with hc
  have : (c.calls [.measureAll]).runResult N B =
      .ok (listing (format dims out) dims (stateAfter N dims init (ss.flatMap Step.asCalls))) := by
    rw [runResult_backend hB]
    unfold Circuit.runResult
    rw [hw, hout, hf]
    simp only
    rw [fresh_output, ← finalState_valid (N := N) (init := init) h2 hval]
    exact output_vec hvec _ (format_base ho)
  unfold Circuit.run
  rw [this]

/-- **C76.** An identity gate answers `True` and raises the reported depth by one, even on an idle register. -/
theorem C76_identity_depth [Nontrivial R] (hne : dims ≠ [])
    {init : List Int} (h : ValidStart (dims.map Int.ofNat) init) (out : Option Output)
    {ss : List (Step R)} (hss : ∀ s ∈ ss, s.Valid dims) {q : Int} {k : Option Nat} (hq : InRange dims q)
    (hd : DimOK dims q k) {c : Circuit R} (hc : Circuit.new (.list (dims.map Int.ofNat)) init out = .ok c) :
    ((c.steps ss).step (.gateOf .i q k)).2 = .ok true ∧
    (c.steps (ss ++ [.gateOf .i q k])).depth = (c.steps ss).depth + 1 := by
  have h2 := ge_two_of_valid h
  have hpos := List.length_pos_of_ne_nil hne
  rw [new_ok rfl h out] at hc
  injection hc with hc
  subst hc
  have hN : Numerics.Sized (⟨fun d => List.replicate d 0, fun _ => 0⟩ : Numerics R) := fun d _ => by simp
  obtain ⟨layers, hI, _⟩ := steps_inv (ss := ss) hN h2 (fresh_inv _ (q := .list (dims.map Int.ofNat)) out hpos)
    (by simp) (by simp only [freshCircuit, RegsArg.toRegs, Regs.seq, List.map_map]; exact List.map_id'' (fun _ => rfl) dims) hss
  rw [List.nil_append] at hI
  obtain ⟨_, m, h1, hmeas, _⟩ := gateOf_ident hN h2 hI (asCalls_valid hss) hq hd
  refine ⟨by rw [h1], ?_⟩
  have e : ∀ c : Circuit R, c.steps (ss ++ [.gateOf .i q k]) = ((c.steps ss).step (.gateOf .i q k)).1 := fun c => by
    simp [Circuit.steps]
  have noMeas : ∀ (N : Numerics R) (c : Circuit R) {initM layers}, Unmeasured dims (Slot N dims) c initM layers →
      (c.flow.moments.getLast?.getD []).any (·.isMeas) = false := by
    intro N c initM layers hu
    rw [List.any_eq_false]
    intro g hg
    have hm : ∀ m ∈ c.flow.moments, ∀ g ∈ m, g.isMeas = false := by
      intro m hm g hg
      rw [hu.moments, List.mem_cons] at hm
      rcases hm with rfl | hm
      · have := hu.isInit g hg
        cases g <;> simp_all [GateObj.isInit, GateObj.isMeas]
      · obtain ⟨l, hl, rfl⟩ := List.mem_map.1 hm
        exact hu.noMeas l hl g hg
    cases hl : c.flow.moments.getLast? with
    | none => rw [hl] at hg; simp at hg
    | some last =>
      rw [hl] at hg
      simp [hm last (List.mem_of_getLast? hl) g hg]
  rw [e, h1]
  unfold Circuit.depth
  simp only [noMeas _ _ hI.unm, List.getLast?_append, List.getLast?_singleton, Option.some_or, Option.getD_some,
    List.length_append, List.length_singleton]
  rw [if_neg (by simpa using hmeas), if_neg (by simp)]
  push_cast
  ring

/-- `x` on register 0, then `gate(IGate, 0)`, `gate(XGate, 0)` and `gate(ZGate, 1)`. -/
example {B : Backend ℤ} (hB : B.Lawful) :
    stepScript sampleN B (.list [2, 3]) [] none
        [.call (.x 0 none 1), .gateOf .i 0 none, .gateOf .x 0 none, .gateOf .z 1 none] =
      script sampleN B (.list [2, 3]) [] none [.x 0 none 1, .z 1 none, .measureAll] :=
  C76_gate_classes sampleN_sized hB (dims := [2, 3]) (by simp) (validStart_of rfl) (by simp)
    (by simp [Step.Valid, Call.Valid, InRange, DimOK])

/-- The dimension must be the register's own: with a smaller one the identity gate makes `run` raise. -/
example : stepScript sampleN (numpyBackend ℤ) (.list [2, 3]) [] none [.gateOf .i 1 (some 2)] = .error .value := by
  decide +kernel

end QuDiet
