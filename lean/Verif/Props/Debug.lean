import Verif.Debug
import Verif.Lemmas.Threads
import Verif.Lemmas.History
import Verif.Props.Measure
import Verif.Props.Sample

/-! # C81: comparing two circuits with `weak_compare` -/

namespace QuDiet
open Spec

variable {R : Type} [CommRing R]

/-! ### What is kept of the layers -/

theorem call_layerOf (c : Circuit R) (k k' : Call R) : (c.call k).1.layerOf k' = c.layerOf k' := by
  unfold Circuit.call
  rcases callM_layerOf c k with ⟨e, h, _⟩ | ⟨m, _, ⟨e, h, _⟩ | ⟨f, b, b', h, _⟩⟩
  · rw [h]
  · rw [h]
  · rw [h]; exact layerOf_flow c f k'

/-- Each layer has a record. -/
structure Recorded.WF (b : Recorded R) : Prop where
  some : b.circuit.flow.moments ≠ []
  len : b.made.length = b.circuit.flow.moments.length

/-- A call adds at most one layer, and the record of that layer. -/
theorem Recorded.call_made {b : Recorded R} (h : b.WF) (k : Call R) (cls : String) :
    (b.call k cls).WF ∧
      (((b.call k cls).made = b.made ∧ (b.call k cls).circuit.flow.moments.length = b.circuit.flow.moments.length) ∨
      ∃ m, b.circuit.layerOf k = .ok m ∧ (b.call k cls).made = b.made ++ [named cls m] ∧
        (b.call k cls).circuit.flow.moments.length = b.circuit.flow.moments.length + 1) := by
  have keep : (b.circuit.call k).1.flow.moments.length = b.circuit.flow.moments.length →
      (b.circuit.call k).1.flow.moments ≠ [] → (b.call k cls).WF ∧
      ((b.call k cls).made = b.made ∧ (b.call k cls).circuit.flow.moments.length = b.circuit.flow.moments.length) := by
    intro hl hne
    have : (b.call k cls).made = b.made := if_neg (by omega)
    exact ⟨⟨hne, by rw [this]; exact h.len.trans hl.symm⟩, this, hl⟩
  rcases callM_layerOf b.circuit k with ⟨e, h1, _⟩ | ⟨m, hm, ⟨e, h1, _⟩ | ⟨f, r, r', h1, h2⟩⟩
  · have e : (b.circuit.call k).1 = b.circuit := by unfold Circuit.call; rw [h1]
    obtain ⟨k1, k2⟩ := keep (by rw [e]) (by rw [e]; exact h.some)
    exact ⟨k1, .inl k2⟩
  · have e : (b.circuit.call k).1 = b.circuit := by unfold Circuit.call; rw [h1]
    obtain ⟨k1, k2⟩ := keep (by rw [e]) (by rw [e]; exact h.some)
    exact ⟨k1, .inl k2⟩
  · have e : (b.circuit.call k).1.flow = f := by unfold Circuit.call; rw [h1]
    have hg := populate_grow h.some h2
    cases hg with
    | same =>
      obtain ⟨k1, k2⟩ := keep (by rw [e]) (by rw [e]; exact h.some)
      exact ⟨k1, .inl k2⟩
    | join hl _ _ =>
      obtain ⟨k1, k2⟩ := keep (by
        rw [e]
        have := List.length_pos_of_ne_nil h.some
        simp only [List.length_append, List.length_dropLast, List.length_cons, List.length_nil]; omega) (by rw [e]; simp)
      exact ⟨k1, .inl k2⟩
    | more _ _ =>
      have hl : (b.circuit.call k).1.flow.moments.length = b.circuit.flow.moments.length + 1 := by rw [e]; simp
      have hmade : (b.call k cls).made = b.made ++ [named cls m] := by
        unfold Recorded.call
        simp only
        rw [if_pos (by omega), hm]
      refine ⟨⟨?_, ?_⟩, .inr ⟨m, hm, hmade, hl⟩⟩
      · change (b.circuit.call k).1.flow.moments ≠ []
        rw [e]; simp
      · rw [hmade, List.length_append, h.len]
        exact hl.symm

theorem Recorded.calls_circuit (b : Recorded R) (ks : List (Call R × String)) :
    (b.calls ks).circuit = b.circuit.calls (ks.map Prod.fst) := by
  induction ks generalizing b with
  | nil => rfl
  | cons k ks ih => exact ih (b.call k.1 k.2)

theorem Recorded.calls_append (b : Recorded R) (ks l : List (Call R × String)) :
    b.calls (ks ++ l) = (b.calls ks).calls l := List.foldl_append

/-- Later calls keep the records of earlier layers. -/
theorem Recorded.calls_made {b : Recorded R} (h : b.WF) (ks : List (Call R × String)) :
    (b.calls ks).WF ∧ ∃ E, (b.calls ks).made = b.made ++ E ∧
      ∀ l ∈ E, ∃ k ∈ ks, ∃ m, b.circuit.layerOf k.1 = .ok m ∧ l = named k.2 m := by
  induction ks generalizing b with
  | nil => exact ⟨h, [], by simp [Recorded.calls], by simp⟩
  | cons k ks ih =>
    obtain ⟨h1, h2⟩ := Recorded.call_made h k.1 k.2
    obtain ⟨i1, E, i2, i3⟩ := ih h1
    have i3' : ∀ l ∈ E, ∃ k' ∈ k :: ks, ∃ m, b.circuit.layerOf k'.1 = .ok m ∧ l = named k'.2 m := by
      intro l hl
      obtain ⟨k', hk', m, hm, e⟩ := i3 l hl
      exact ⟨k', List.mem_cons_of_mem _ hk', m, by rw [← call_layerOf b.circuit k.1]; exact hm, e⟩
    refine ⟨i1, ?_⟩
    rcases h2 with ⟨h2, _⟩ | ⟨m, hm, h2, _⟩
    · refine ⟨E, ?_, i3'⟩
      rw [← h2]; exact i2
    · refine ⟨named k.2 m :: E, ?_, ?_⟩
      · have : (b.calls (k :: ks)).made = (b.call k.1 k.2).made ++ E := i2
        rw [this, h2, List.append_assoc]; rfl
      · intro l hl
        rcases List.mem_cons.1 hl with rfl | hl
        · exact ⟨k, by simp, m, hm, rfl⟩
        · exact i3' l hl

theorem Recorded.new_ok {q : RegsArg} {init : List Int} {out : Option Output} {b : Recorded R}
    (h : Recorded.new q init out = .ok b) :
    Circuit.new q init out = .ok b.circuit ∧ b.made = b.circuit.flow.moments.map (named "") ∧ b.WF := by
  unfold Recorded.new at h
  cases hc : Circuit.new (R := R) q init out with
  | error e => rw [hc] at h; cases h
  | ok c =>
    rw [hc] at h
    cases h
    refine ⟨rfl, rfl, ?_, ?_⟩
    · obtain ⟨dims, _, _, rfl⟩ := new_fresh hc
      simp [freshCircuit]
    · simp

variable [StarRing R] [DecidableEq R] [UnitaryCheck R]

/-! ### Names and shapes -/

/-- The first circuit's backend and the second one's may differ; both compute the same matrices. -/
theorem opRepr_same (N : Numerics R) {S1 S2 : Store R} (h1 : S1.backend.Lawful) (h2 : S2.backend.Lawful) (op : NamedOp R)
    {a b : String × Nat × Nat} (ha : opRepr N S1 op = .ok a) (hb : opRepr N S2 op = .ok b) : a = b := by
  unfold opRepr at ha hb
  split at ha
  · cases ha
  · rename_i hm
    rw [if_neg hm] at hb
    have e1 := unitary_same h1 N op.2
    have e2 := unitary_same h2 N op.2
    cases h1' : op.2.unitary N S1.backend with
    | error e => rw [h1'] at ha; cases ha
    | ok u1 =>
      cases h2' : op.2.unitary N S2.backend with
      | error e => rw [h2'] at hb; cases hb
      | ok u2 =>
        rw [h1'] at e1 ha
        rw [h2'] at e2 hb
        rcases e1 with ⟨e, h, _⟩ | ⟨x, y, hx, hy, r1⟩
        · cases h
        rcases e2 with ⟨e, h, _⟩ | ⟨x', y', hx', hy', r2⟩
        · cases h
        cases hx
        cases hx'
        rw [hy] at hy'
        cases hy'
        simp only [bind, Except.bind] at ha hb
        split at ha
        · split at hb
          · cases ha
            cases hb
            rw [r1.1, r1.2.1, r2.1, r2.2.1]
          · cases hb
        · cases ha

theorem mapM_ok_same {α β : Type} {f g : α → PyM β} (h : ∀ a x y, f a = .ok x → g a = .ok y → x = y) {l : List α}
    {r1 r2 : List β} (h1 : l.mapM f = .ok r1) (h2 : l.mapM g = .ok r2) : r1 = r2 := by
  induction l generalizing r1 r2 with
  | nil => cases h1; cases h2; rfl
  | cons a l ih =>
    rw [List.mapM_cons] at h1 h2
    cases hf : f a with
    | error e => rw [hf] at h1; cases h1
    | ok x =>
      cases hg : g a with
      | error e => rw [hg] at h2; cases h2
      | ok y =>
        rw [hf] at h1
        rw [hg] at h2
        simp only [bind, Except.bind, pure, Except.pure] at h1 h2
        cases hl1 : l.mapM f with
        | error e => rw [hl1] at h1; cases h1
        | ok s1 =>
          cases hl2 : l.mapM g with
          | error e => rw [hl2] at h2; cases h2
          | ok s2 =>
            rw [hl1] at h1
            rw [hl2] at h2
            cases h1
            cases h2
            rw [h a x y hf hg, ih hl1 hl2]

theorem momentRepr_same (N : Numerics R) {S1 S2 : Store R} (h1 : S1.backend.Lawful) (h2 : S2.backend.Lawful)
    (m : List (NamedOp R)) {a b : List (String × Nat × Nat)} (ha : momentRepr N S1 m = .ok a)
    (hb : momentRepr N S2 m = .ok b) : a = b :=
  mapM_ok_same (fun op _ _ => opRepr_same N h1 h2 op) ha hb

/-- The layers that two circuits have in common are never reported. -/
theorem weakLoop_common (N : Numerics R) {S1 S2 : Store R} (h1 : S1.backend.Lawful) (h2 : S2.backend.Lawful)
    (P : List (List (NamedOp R))) (i : Nat) (ms : List (List (NamedOp R) × List (NamedOp R))) :
    (∃ e, weakLoop N S1 S2 i (P.zip P ++ ms) = .error e) ∨
      weakLoop N S1 S2 i (P.zip P ++ ms) = weakLoop N S1 S2 (i + P.length) ms := by
  induction P generalizing i with
  | nil => right; rfl
  | cons m P ih =>
    rw [List.zip_cons_cons, List.cons_append, weakLoop]
    cases hr1 : momentRepr N S1 m with
    | error e => exact .inl ⟨e, rfl⟩
    | ok r1 =>
      cases hr2 : momentRepr N S2 m with
      | error e => exact .inl ⟨e, rfl⟩
      | ok r2 =>
        simp only [bind, Except.bind]
        rw [if_pos (momentRepr_same N h1 h2 m hr1 hr2), List.length_cons, show i + (P.length + 1) = i + 1 + P.length by omega]
        exact ih (i + 1)

theorem weakLoop_ge (N : Numerics R) (S1 S2 : Store R) (ms : List (List (NamedOp R) × List (NamedOp R))) {i j : Nat}
    (h : weakLoop N S1 S2 i ms = .ok (some j)) : i ≤ j := by
  induction ms generalizing i with
  | nil => cases h
  | cons m ms ih =>
    rw [weakLoop] at h
    cases hr1 : momentRepr N S1 m.1 with
    | error e => rw [hr1] at h; cases h
    | ok r1 =>
      cases hr2 : momentRepr N S2 m.2 with
      | error e => rw [hr1, hr2] at h; cases h
      | ok r2 =>
        rw [hr1, hr2] at h
        simp only [bind, Except.bind] at h
        split at h
        · have := ih h; omega
        · cases h; exact le_refl _

/-! ### The layer of a valid call -/

/-- The name of the class of the gate that a call makes. -/
def Call.className (cls : String) : Call R → String
  | .h .. => "HGate"
  | .x .. => "XGate"
  | .z .. => "ZGate"
  | .cx .. => "CXGate"
  | .toffoli .. => "Toffoli"
  | .gate .. => cls
  | .measure .. => ""
  | .measureAll => "Measurement"

omit [StarRing R] [DecidableEq R] [UnitaryCheck R] in
theorem op_className {dims : List Nat} {k : Call R} {g : GateObj R} (h : k.op dims = .ok g) (cls : String) :
    g.className cls = k.className cls := by
  cases k with
  | h q d => cases h; rfl
  | x q d p => cases h; rfl
  | z q d => cases h; rfl
  | cx c t p => cases h; rfl
  | toffoli cs t p =>
    simp only [Call.op] at h
    cases ht : toffoliDm (R := R) cs t p dims with
    | error e => rw [ht] at h; cases h
    | ok v => rw [ht] at h; cases h; rfl
  | gate U q d => cases q <;> (cases h; rfl)
  | measure q => cases h
  | measureAll => cases h

variable {N : Numerics R} {dims : List Nat}

/-- The layer of a valid call: identities, and one gate, which has a matrix. -/
theorem layer_valid [Nontrivial R] (hN : N.Sized) (hpos : 0 < dims.length) (h2 : ∀ d ∈ dims, 2 ≤ d) {init : List Int}
    {out : Option Output} {k : Call R} (hk : k.Valid dims) {m : List (GateObj R)}
    (hm : (freshCircuit (R := R) (.list (dims.map Int.ofNat)) dims init out).layerOf k = .ok m) :
    ∃ g, g ∈ m ∧ k.op dims = .ok g ∧ (∃ M, g.unitary N (numpyBackend R) = .ok M) ∧ g.isMeas = false ∧
      ∀ g' ∈ m, g' = g ∨ ∃ q d, g' = .ident q d := by
  have hap := hk.applied h2
  have hU := (fresh_inv N (q := .list (dims.map Int.ofNat)) (init := init) out hpos).unm
  have hseq : (freshCircuit (R := R) (.list (dims.map Int.ofNat)) dims init out).qregs.seq = dims := by
    simp [freshCircuit, RegsArg.toRegs, Regs.seq, Function.comp_def]
  obtain ⟨ra, lb, ub, g, hE⟩ := emits_all hN h2 hpos hU.regDims hU.regLength (k := k) (fun _ => hseq)
    hk.not_measureAll (by rw [hap]; simp) (by rw [hap]; simp)
  obtain ⟨hin, b, hb, _⟩ := hE.applied hap
  obtain ⟨f, layers', hadd, hunm, hcase⟩ := addMoment_spec hU (bI := idSlot dims)
    (fun r hr => slot_ident N dims r hr) hE.gateAt (some b) (fun _ => hb)
  have hf : f.moments = [initOps dims init, layout dims lb ub g] := by
    have := hunm.moments
    rcases hcase with ⟨_, rfl⟩ | ⟨h, _⟩ | ⟨_, _, _, ls, _, _, _, _, _, _, h, _⟩
    · simpa using this
    · exact absurd hin h
    · simp at h
  have hcall := hE.call _ hadd
  have e : m = layout dims lb ub g := by
    rcases callM_layerOf (freshCircuit (R := R) (.list (dims.map Int.ofNat)) dims init out) k with
      ⟨e, h1, _⟩ | ⟨m', h1, ⟨e, h3, _⟩ | ⟨f', b, b', h3, h4⟩⟩
    · rw [h1] at hcall; cases hcall
    · rw [h3] at hcall; cases hcall
    · rw [hm] at h1
      cases h1
      rw [h3] at hcall
      injection hcall with hcall
      have e : f' = f := congrArg (fun p : Circuit R × Bool => p.1.flow) hcall
      rw [e] at h4
      have hg := populate_grow (by simp [freshCircuit]) h4
      cases hg with
      | same => simp [freshCircuit] at hf
      | more _ _ =>
        simp only [freshCircuit, List.cons_append, List.nil_append, List.cons.injEq, and_true, true_and] at hf
        exact hf
      | join _ _ _ =>
        simp [freshCircuit] at hf
  obtain ⟨M, hM, _⟩ := hb.2.1
  refine ⟨g, ?_, hE.op, ⟨M, hM⟩, hE.gateAt.notMeas, ?_⟩
  · rw [e]
    simp only [layout, if_pos hin, List.mem_append, List.mem_cons, true_or, or_true]
  · rw [e]
    exact layout_all (P := fun g' => g' = g ∨ ∃ q d, g' = .ident q d) (fun q d => .inr ⟨q, d, rfl⟩) (.inl rfl)

/-- A backend whose matrices have `toarray` can describe every operator that has a matrix. -/
theorem opRepr_ok {S : Store R} (hB : S.backend.Lawful) (hS : S.hasToarray = true) {op : NamedOp R}
    (hm : op.2.isMeas = false) {M : Mat R} (hM : op.2.unitary N (numpyBackend R) = .ok M) :
    opRepr N S op = .ok (op.1, M.rows, M.cols) := by
  unfold opRepr
  rw [if_neg (by simp [hm])]
  rcases unitary_same hB N op.2 with ⟨e, _, h⟩ | ⟨x, y, hx, hy, r⟩
  · rw [hM] at h; cases h
  · rw [hM] at hy
    cases hy
    simp only [hx, bind, Except.bind, hS, if_true]
    rw [r.1, r.2.1]

theorem mapM_all_ok {α β : Type} {f : α → PyM β} {g : α → β} {l : List α} (h : ∀ a ∈ l, f a = .ok (g a)) :
    l.mapM f = .ok (l.map g) := by
  induction l with
  | nil => rfl
  | cons a l ih =>
    rw [List.mapM_cons, h a (by simp), ih fun x hx => h x (by simp [hx])]
    rfl

/-- Every operator of the layer has a matrix and is no measurement. -/
def Readable (N : Numerics R) (m : List (NamedOp R)) : Prop :=
  ∀ op ∈ m, op.2.isMeas = false ∧ ∃ M, op.2.unitary N (numpyBackend R) = .ok M

theorem Readable.repr {S : Store R} (hB : S.backend.Lawful) (hS : S.hasToarray = true) {m : List (NamedOp R)}
    (h : Readable N m) : ∃ r, momentRepr N S m = .ok r ∧ r.map Prod.fst = m.map Prod.fst := by
  classical
  have : ∀ op ∈ m, opRepr N S op = .ok (op.1, match op.2.unitary N (numpyBackend R) with
      | .ok M => ((M.rows, M.cols) : Nat × Nat) | .error _ => (0, 0)) := by
    intro op hop
    obtain ⟨h1, M, hM⟩ := h op hop
    rw [opRepr_ok hB hS h1 hM, hM]
  refine ⟨_, mapM_all_ok this, ?_⟩
  simp

theorem named_readable [Nontrivial R] (hN : N.Sized) (hpos : 0 < dims.length) (h2 : ∀ d ∈ dims, 2 ≤ d) {init : List Int}
    {out : Option Output} {k : Call R} (hk : k.Valid dims) {m : List (GateObj R)} (cls : String)
    (hm : (freshCircuit (R := R) (.list (dims.map Int.ofNat)) dims init out).layerOf k = .ok m) :
    Readable N (named cls m) := by
  obtain ⟨g, _, _, hM, hmeas, hall⟩ := layer_valid (N := N) hN hpos h2 hk hm
  intro op hop
  obtain ⟨g', hg', rfl⟩ := List.mem_map.1 hop
  rcases hall g' hg' with rfl | ⟨q, d, rfl⟩
  · exact ⟨hmeas, hM⟩
  · exact ⟨rfl, _, rfl⟩

theorem init_readable {init : List Int} (h : ValidStart (dims.map Int.ofNat) init) (cls : String) :
    Readable N (named cls (initOps (R := R) dims init)) := by
  intro op hop
  obtain ⟨g', hg', rfl⟩ := List.mem_map.1 hop
  refine ⟨(initOps_isInit dims init g' hg').2, ?_⟩
  unfold initOps at hg'
  obtain ⟨i, hi, rfl⟩ := List.mem_map.1 hg'
  rw [List.mem_range] at hi
  obtain ⟨g1, g2, g3⟩ := validStart_getD h hi
  simp only [GateObj.unitary, initVec, pyIndex_ok g2 g3]
  exact ⟨_, rfl⟩

/-- The loop passes over layers that both circuits have in common, if their operators can be described. -/
theorem weakLoop_readable {S1 S2 : Store R} (h1 : S1.backend.Lawful) (h2 : S2.backend.Lawful)
    (t1 : S1.hasToarray = true) (t2 : S2.hasToarray = true) {P : List (List (NamedOp R))} (hP : ∀ m ∈ P, Readable N m)
    (i : Nat) (ms : List (List (NamedOp R) × List (NamedOp R))) :
    weakLoop N S1 S2 i (P.zip P ++ ms) = weakLoop N S1 S2 (i + P.length) ms := by
  induction P generalizing i with
  | nil => rfl
  | cons m P ih =>
    obtain ⟨r1, hr1, _⟩ := (hP m (by simp)).repr h1 t1
    obtain ⟨r2, hr2, _⟩ := (hP m (by simp)).repr h2 t2
    rw [List.zip_cons_cons, List.cons_append, weakLoop, hr1, hr2]
    simp only [bind, Except.bind]
    rw [if_pos (momentRepr_same N h1 h2 m hr1 hr2), List.length_cons, show i + (P.length + 1) = i + 1 + P.length by omega]
    exact ih (fun m hm => hP m (by simp [hm])) (i + 1)

/-! ### The property -/

omit [StarRing R] [DecidableEq R] [UnitaryCheck R] in
/-- The number of layers (`len(qc.op_flow.peek())`) of the circuit on the registers `dims` after the calls `ks`. -/
def layersAfter (dims : List Nat) (init : List Int) (ks : List (Call R)) : Nat :=
  match Circuit.new (R := R) (.list (dims.map Int.ofNat)) init none with
  | .ok c => (c.calls ks).flow.moments.length
  | .error _ => 0

/-- The circuit that the constructor builds, with the record of its first layer. -/
def freshRecorded (dims : List Nat) (init : List Int) : Recorded R where
  circuit := freshCircuit (.list (dims.map Int.ofNat)) dims init none
  made := [named "" (initOps dims init)]

omit [StarRing R] [DecidableEq R] [UnitaryCheck R] in
theorem fresh_wf (dims : List Nat) (init : List Int) : (freshRecorded (R := R) dims init).WF :=
  ⟨by simp [freshRecorded, freshCircuit], by simp [freshRecorded, freshCircuit]⟩

theorem compareBuilt_eq (N : Numerics R) (S1 S2 : Store R) {dims : List Nat} {init : List Int}
    (h : ValidStart (dims.map Int.ofNat) init) (ks1 ks2 : List (Call R × String)) :
    compareBuilt N S1 S2 (.list (dims.map Int.ofNat)) init ks1 ks2 =
      weakCompare N S1 S2 ((freshRecorded dims init).calls ks1) ((freshRecorded dims init).calls ks2) := by
  have e : Recorded.new (R := R) (.list (dims.map Int.ofNat)) init none = .ok (freshRecorded dims init) := by
    unfold Recorded.new
    rw [new_ok (dims := dims) rfl h]
    rfl
  unfold compareBuilt
  rw [e]
  rfl

omit [StarRing R] [DecidableEq R] [UnitaryCheck R] in
theorem layersAfter_eq {dims : List Nat} {init : List Int} (h : ValidStart (dims.map Int.ofNat) init)
    (ks : List (Call R × String)) :
    layersAfter dims init (ks.map Prod.fst) = ((freshRecorded (R := R) dims init).calls ks).circuit.flow.moments.length := by
  unfold layersAfter
  rw [new_ok (dims := dims) rfl h, Recorded.calls_circuit]
  rfl

theorem zip_prefix {α : Type} (P E1 E2 : List α) : (P ++ E1).zip (P ++ E2) = P.zip P ++ E1.zip E2 := by
  rw [List.zip_append rfl]

/-- **C81.** `weak_compare` reports no layer that comes from calls which both circuits have in common: if the circuits
were built by the same calls `ks` up to some point, then a reported layer is one that was added after this point.
(The calls are arbitrary, also ones that raise or make `run` raise.) -/
theorem C81_common_calls (N : Numerics R) {S1 S2 : Store R} (h1 : S1.backend.Lawful) (h2 : S2.backend.Lawful)
    {dims : List Nat} {init : List Int} (h : ValidStart (dims.map Int.ofNat) init) (ks l1 l2 : List (Call R × String))
    {i : Nat} (hi : compareBuilt N S1 S2 (.list (dims.map Int.ofNat)) init (ks ++ l1) (ks ++ l2) = .ok (some i)) :
    layersAfter dims init (ks.map Prod.fst) ≤ i := by
  rw [compareBuilt_eq N S1 S2 h, Recorded.calls_append, Recorded.calls_append] at hi
  rw [layersAfter_eq h]
  obtain ⟨hw, _⟩ := Recorded.calls_made (fresh_wf (R := R) dims init) ks
  obtain ⟨_, E1, e1, _⟩ := Recorded.calls_made hw l1
  obtain ⟨_, E2, e2, _⟩ := Recorded.calls_made hw l2
  unfold weakCompare at hi
  split at hi
  · rw [e1, e2, zip_prefix] at hi
    rcases weakLoop_common N h1 h2 ((freshRecorded dims init).calls ks).made 0 (E1.zip E2) with ⟨e, he⟩ | he
    · rw [he] at hi; cases hi
    · rw [he] at hi
      have := weakLoop_ge N S1 S2 _ hi
      rw [← hw.len]
      omega
  · cases hi

/-- The records of the layers of valid calls. -/
theorem made_readable [Nontrivial R] (hN : N.Sized) (hne : dims ≠ []) {init : List Int}
    (h : ValidStart (dims.map Int.ofNat) init) {ks : List (Call R × String)} (hk : ∀ k ∈ ks, k.1.Valid dims) :
    ∀ m ∈ ((freshRecorded (R := R) dims init).calls ks).made, Readable N m := by
  have hpos := List.length_pos_of_ne_nil hne
  have h2 : ∀ d ∈ dims, 2 ≤ d := fun d hd => by
    have := h.1 (Int.ofNat d) (List.mem_map_of_mem hd)
    simpa using this
  obtain ⟨_, E, e, hE⟩ := Recorded.calls_made (fresh_wf (R := R) dims init) ks
  rw [e]
  intro m hm
  rcases List.mem_append.1 hm with hm | hm
  · rw [List.mem_singleton.1 hm]
    exact init_readable h ""
  · obtain ⟨k, hkm, m', hm', rfl⟩ := hE m hm
    exact named_readable hN hpos h2 (hk k hkm) k.2 hm'

/-- **C81.** A circuit that was built by valid calls is not told apart from one that went on with any other calls,
measured or not. -/
theorem C81_extension [Nontrivial R] (hN : N.Sized) {S1 S2 : Store R} (h1 : S1.backend.Lawful) (h2 : S2.backend.Lawful)
    (t1 : S1.hasToarray = true) (t2 : S2.hasToarray = true) (hne : dims ≠ []) {init : List Int}
    (h : ValidStart (dims.map Int.ofNat) init) {ks : List (Call R × String)} (hk : ∀ k ∈ ks, k.1.Valid dims)
    (l : List (Call R × String)) :
    compareBuilt N S1 S2 (.list (dims.map Int.ofNat)) init ks (ks ++ l) = .ok none ∧
      compareBuilt N S1 S2 (.list (dims.map Int.ofNat)) init (ks ++ l) ks = .ok none := by
  have hr := made_readable hN hne h hk
  obtain ⟨hw, _⟩ := Recorded.calls_made (fresh_wf (R := R) dims init) ks
  obtain ⟨_, E, e, _⟩ := Recorded.calls_made hw l
  rw [compareBuilt_eq N S1 S2 h, compareBuilt_eq N S1 S2 h, Recorded.calls_append]
  have z1 := zip_prefix ((freshRecorded (R := R) dims init).calls ks).made [] E
  have z2 := zip_prefix ((freshRecorded (R := R) dims init).calls ks).made E []
  rw [List.append_nil] at z1 z2
  unfold weakCompare
  rw [e, z1, z2, List.zip_nil_left, List.zip_nil_right, weakLoop_readable h1 h2 t1 t2 hr]
  constructor <;> split <;> rfl

/-- **C81.** After the same valid calls, one circuit goes on with `k1` and the other with `k2`. If each of them needs a
layer of its own, their gates are of different classes, and the circuits end up with different numbers of layers, then
exactly this layer is reported. -/
theorem C81_found [Nontrivial R] (hN : N.Sized) {S1 S2 : Store R} (h1 : S1.backend.Lawful) (h2 : S2.backend.Lawful)
    (t1 : S1.hasToarray = true) (t2 : S2.hasToarray = true) (hne : dims ≠ []) {init : List Int}
    (h : ValidStart (dims.map Int.ofNat) init) {ks l1 l2 : List (Call R × String)} {k1 k2 : Call R × String}
    (hk : ∀ k ∈ ks, k.1.Valid dims) (hk1 : k1.1.Valid dims) (hk2 : k2.1.Valid dims)
    (n1 : layersAfter dims init ((ks ++ [k1]).map Prod.fst) = layersAfter dims init (ks.map Prod.fst) + 1)
    (n2 : layersAfter dims init ((ks ++ [k2]).map Prod.fst) = layersAfter dims init (ks.map Prod.fst) + 1)
    (hcls : k1.1.className k1.2 ≠ k2.1.className k2.2) (hid : k1.1.className k1.2 ≠ "IGate")
    (hlen : layersAfter dims init ((ks ++ k1 :: l1).map Prod.fst) ≠ layersAfter dims init ((ks ++ k2 :: l2).map Prod.fst)) :
    compareBuilt N S1 S2 (.list (dims.map Int.ofNat)) init (ks ++ k1 :: l1) (ks ++ k2 :: l2) =
      .ok (some (layersAfter dims init (ks.map Prod.fst))) := by
  have hpos := List.length_pos_of_ne_nil hne
  have hd2 : ∀ d ∈ dims, 2 ≤ d := fun d hd => by
    have := h.1 (Int.ofNat d) (List.mem_map_of_mem hd)
    simpa using this
  have hr := made_readable hN hne h hk
  obtain ⟨hw, _⟩ := Recorded.calls_made (fresh_wf (R := R) dims init) ks
  -- the layer that a call adds
  have one : ∀ {k : Call R × String} {l : List (Call R × String)}, k.1.Valid dims →
      layersAfter dims init ((ks ++ [k]).map Prod.fst) = layersAfter dims init (ks.map Prod.fst) + 1 →
      ∃ m g E, ((freshRecorded (R := R) dims init).calls (ks ++ k :: l)).made =
        ((freshRecorded (R := R) dims init).calls ks).made ++ named k.2 m :: E ∧ Readable N (named k.2 m) ∧
        g ∈ m ∧ g.className k.2 = k.1.className k.2 ∧ ∀ g' ∈ m, g' = g ∨ ∃ q d, g' = .ident q d := by
    intro k l hkv hn
    rw [layersAfter_eq h, layersAfter_eq h, Recorded.calls_append] at hn
    obtain ⟨hw', hm⟩ := Recorded.call_made hw k.1 k.2
    rcases hm with ⟨_, hl⟩ | ⟨m, hm, hmade, _⟩
    · have : (((freshRecorded (R := R) dims init).calls ks).calls [k]) =
        ((freshRecorded (R := R) dims init).calls ks).call k.1 k.2 := rfl
      rw [this] at hn
      omega
    · obtain ⟨_, E, e, _⟩ := Recorded.calls_made hw' l
      have hm' : (freshCircuit (R := R) (.list (dims.map Int.ofNat)) dims init none).layerOf k.1 = .ok m := by
        have : ∀ (ks : List (Call R)) (c : Circuit R), (c.calls ks).layerOf k.1 = c.layerOf k.1 := by
          intro ks
          induction ks with
          | nil => intro c; rfl
          | cons k' ks ih => intro c; rw [Circuit.calls_cons, ih, call_layerOf]
        rw [Recorded.calls_circuit, this] at hm
        exact hm
      obtain ⟨g, hg, hop, _, _, hall⟩ := layer_valid (N := N) hN hpos hd2 hkv hm'
      refine ⟨m, g, E, ?_, named_readable hN hpos hd2 hkv k.2 hm', hg, op_className hop k.2, hall⟩
      rw [Recorded.calls_append]
      have : (((freshRecorded (R := R) dims init).calls ks).calls (k :: l)) =
        (((freshRecorded (R := R) dims init).calls ks).call k.1 k.2).calls l := rfl
      rw [this, e, hmade, List.append_assoc]
      rfl
  obtain ⟨m1, g1, E1, e1, r1, hg1, hc1, _⟩ := one (l := l1) hk1 n1
  obtain ⟨m2, g2, E2, e2, r2, _, hc2, hall2⟩ := one (l := l2) hk2 n2
  rw [layersAfter_eq h, layersAfter_eq h] at hlen
  rw [compareBuilt_eq N S1 S2 h, layersAfter_eq h]
  unfold weakCompare
  rw [if_pos hlen, e1, e2, zip_prefix, weakLoop_readable h1 h2 t1 t2 hr, List.zip_cons_cons, weakLoop]
  obtain ⟨s1, hs1, hf1⟩ := r1.repr h1 t1
  obtain ⟨s2, hs2, hf2⟩ := r2.repr h2 t2
  simp only [hs1, hs2, bind, Except.bind]
  rw [if_neg, Nat.zero_add, hw.len]
  rintro rfl
  have hmem : k1.1.className k1.2 ∈ (named k2.2 m2).map Prod.fst := by
    rw [← hf2, hf1]
    refine List.mem_map.2 ⟨(g1.className k1.2, g1), List.mem_map.2 ⟨g1, hg1, rfl⟩, hc1⟩
  obtain ⟨op, hop, he⟩ := List.mem_map.1 hmem
  obtain ⟨g', hg', rfl⟩ := List.mem_map.1 hop
  rcases hall2 g' hg' with rfl | ⟨q, d, rfl⟩
  · exact hcls (he.symm.trans hc2)
  · exact hid he.symm

/-- **C81.** Circuits with the same number of layers are not compared at all. -/
theorem C81_same_depth (N : Numerics R) (S1 S2 : Store R) {dims : List Nat} {init : List Int}
    (h : ValidStart (dims.map Int.ofNat) init) (ks1 ks2 : List (Call R × String))
    (hl : layersAfter dims init (ks1.map Prod.fst) = layersAfter dims init (ks2.map Prod.fst)) :
    compareBuilt N S1 S2 (.list (dims.map Int.ofNat)) init ks1 ks2 = .ok none := by
  rw [compareBuilt_eq N S1 S2 h]
  rw [layersAfter_eq h, layersAfter_eq h] at hl
  exact if_neg (not_not.2 hl)

/-- **C81.** With a backend whose matrices have no method `toarray` (`NumpyBackend`) the comparison raises
`AttributeError` whenever it has something to do, whatever the circuits are. -/
theorem C81_numpy (N : Numerics R) {S1 S2 : Store R} (h1 : S1.backend.Lawful) (h2 : S2.backend.Lawful)
    (t : S1.hasToarray = false ∨ S2.hasToarray = false) {dims : List Nat} (hne : dims ≠ []) {init : List Int}
    (h : ValidStart (dims.map Int.ofNat) init) (ks1 ks2 : List (Call R × String))
    (hl : layersAfter dims init (ks1.map Prod.fst) ≠ layersAfter dims init (ks2.map Prod.fst)) :
    compareBuilt N S1 S2 (.list (dims.map Int.ofNat)) init ks1 ks2 = .error .attribute := by
  rw [compareBuilt_eq N S1 S2 h]
  rw [layersAfter_eq h, layersAfter_eq h] at hl
  obtain ⟨_, E1, e1, _⟩ := Recorded.calls_made (fresh_wf (R := R) dims init) ks1
  obtain ⟨_, E2, e2, _⟩ := Recorded.calls_made (fresh_wf (R := R) dims init) ks2
  have hr := init_readable (N := N) h ""
  unfold weakCompare
  rw [if_pos hl, e1, e2]
  simp only [freshRecorded, List.cons_append, List.zip_cons_cons, weakLoop]
  have raises : ∀ {S : Store R}, S.backend.Lawful → S.hasToarray = false →
      momentRepr N S (named "" (initOps dims init)) = .error .attribute := by
    intro S hB hS
    have hn : initOps (R := R) dims init ≠ [] := by
      intro h0
      have := congrArg List.length h0
      simp [initOps, hne] at this
    cases ho : initOps (R := R) dims init with
    | nil => exact absurd ho hn
    | cons g gs =>
      have hg := hr (g.className "", g) (by rw [ho]; simp [named])
      obtain ⟨hm, M, hM⟩ := hg
      have : opRepr N S (g.className "", g) = .error .attribute := by
        unfold opRepr
        rw [if_neg (by simp at hm; simp [hm])]
        rcases unitary_same hB N g with ⟨e, _, h⟩ | ⟨x, y, hx, _, _⟩
        · rw [hM] at h; cases h
        · simp only [hx, bind, Except.bind, hS]
          rfl
      simp only [momentRepr, named, List.map_cons, List.mapM_cons, this]
      rfl
  cases hs1 : S1.hasToarray with
  | false => rw [raises h1 hs1]; rfl
  | true =>
    have hs2 : S2.hasToarray = false := by
      rcases t with t | t
      · rw [hs1] at t; cases t
      · exact t
    obtain ⟨r, hr1, _⟩ := hr.repr h1 hs1
    rw [hr1, raises h2 hs2]
    rfl

/-- **C81.** Once one of two circuits is measured and the other one has gone on, the comparison raises
`AttributeError`. -/
theorem C81_measured [Nontrivial R] (hN : N.Sized) {S1 S2 : Store R} (h1 : S1.backend.Lawful) (h2 : S2.backend.Lawful)
    (t1 : S1.hasToarray = true) (t2 : S2.hasToarray = true) (hne : dims ≠ []) {init : List Int}
    (h : ValidStart (dims.map Int.ofNat) init) {ks l : List (Call R × String)} (hk : ∀ k ∈ ks ++ l, k.1.Valid dims)
    (cls : String) (hl : layersAfter dims init (ks.map Prod.fst) + 1 < layersAfter dims init ((ks ++ l).map Prod.fst)) :
    compareBuilt N S1 S2 (.list (dims.map Int.ofNat)) init (ks ++ [(.measureAll, cls)]) (ks ++ l) = .error .attribute ∧
      compareBuilt N S1 S2 (.list (dims.map Int.ofNat)) init (ks ++ l) (ks ++ [(.measureAll, cls)]) =
        .error .attribute := by
  have hpos := List.length_pos_of_ne_nil hne
  have hr := made_readable hN hne h (ks := ks) fun k hk' => hk k (by simp [hk'])
  have hrl := made_readable hN hne h hk
  obtain ⟨hw, _⟩ := Recorded.calls_made (fresh_wf (R := R) dims init) ks
  obtain ⟨hwl, E, e, _⟩ := Recorded.calls_made hw l
  obtain ⟨hwm, hm⟩ := Recorded.call_made hw .measureAll cls
  -- the first circuit has one layer more
  have hU : ∃ layers, Unmeasured dims Free ((freshRecorded (R := R) dims init).calls ks).circuit (initOps dims init) layers := by
    rw [Recorded.calls_circuit]
    rcases (reach_any (R := R) (q := .list (dims.map Int.ofNat)) hpos init none (ks.map Prod.fst)).2 with ⟨_, layers, hu⟩ | ⟨hmem, _⟩
    · exact ⟨layers, hu⟩
    · exfalso
      obtain ⟨k, hk', hke⟩ := List.mem_map.1 hmem
      have := hk k (by simp [hk'])
      rw [hke] at this
      exact this
  obtain ⟨layers, hU⟩ := hU
  have hlen1 : (((freshRecorded (R := R) dims init).calls ks).call .measureAll cls).circuit.flow.moments.length =
      ((freshRecorded (R := R) dims init).calls ks).circuit.flow.moments.length + 1 := by
    change ((((freshRecorded (R := R) dims init).calls ks).circuit.call .measureAll).1).flow.moments.length = _
    rw [hU.measure]
    simp
  rw [layersAfter_eq h, layersAfter_eq h, Recorded.calls_append] at hl
  have hne1 : (((freshRecorded (R := R) dims init).calls ks).call .measureAll cls).circuit.flow.moments.length ≠
      (((freshRecorded (R := R) dims init).calls ks).calls l).circuit.flow.moments.length := by omega
  rcases hm with ⟨_, hm⟩ | ⟨m, hm, hmade, _⟩
  · omega
  have hlay : m = (List.range dims.length).map .meas := by
    have e : ((freshRecorded (R := R) dims init).calls ks).circuit.layerOf .measureAll =
      .ok ((List.range ((freshRecorded (R := R) dims init).calls ks).circuit.regLength).map .meas) := rfl
    rw [hm, hU.regLength] at e
    cases e; rfl
  have hE : E ≠ [] := by
    rintro rfl
    have := hwl.len
    rw [e, List.append_nil, hw.len] at this
    omega
  obtain ⟨m', E', rfl⟩ := List.exists_cons_of_ne_nil hE
  have hm' : Readable N m' := hrl m' (by rw [Recorded.calls_append, e]; simp)
  have hbad : ∀ S : Store R, momentRepr N S (named cls m) = .error .attribute := by
    intro S
    obtain ⟨n, hn⟩ := Nat.exists_eq_succ_of_ne_zero (Nat.pos_iff_ne_zero.1 hpos)
    rw [hlay, hn, List.range_succ_eq_map]
    simp only [momentRepr, named, List.map_cons, List.mapM_cons, opRepr, GateObj.isMeas, if_true]
    rfl
  have c1 : ∀ b : Recorded R, b.calls [(.measureAll, cls)] = b.call .measureAll cls := fun _ => rfl
  rw [compareBuilt_eq N S1 S2 h, compareBuilt_eq N S1 S2 h, Recorded.calls_append, Recorded.calls_append, c1]
  unfold weakCompare
  constructor
  · rw [if_pos hne1, hmade, e, zip_prefix, weakLoop_readable h1 h2 t1 t2 hr, List.zip_cons_cons, weakLoop, hbad]
    rfl
  · obtain ⟨r, hr1, _⟩ := hm'.repr h1 t1
    rw [if_pos hne1.symm, hmade, e, zip_prefix, weakLoop_readable h1 h2 t1 t2 hr, List.zip_cons_cons, weakLoop, hr1, hbad]
    rfl

/-! ### The hypotheses can be met, and what the comparison misses -/

/-- The sparse backend over the integers. -/
def sparseStore : Store ℤ := { backend := sparseBackend ℤ, hasToarray := true }

/-- Two circuits whose first gate is the same, and the second joins the first one's layer in one of them only. -/
def missed1 : List (Call ℤ × String) := [(.x 0 none 1, ""), (.x 1 none 1, ""), (.cx 0 1 1, "")]
/-- See `missed1`. -/
def missed2 : List (Call ℤ × String) := [(.x 0 none 1, ""), (.cx 0 1 1, ""), (.x 0 none 1, "")]

/-- **C81** (refutation). That nothing is reported does not mean that the circuits agree: here they differ in a gate of
a layer that is compared, have different numbers of layers, and different results. A gate that went into an existing
layer is not seen, since layers are compared by the operators they were made with. -/
theorem C81_missed :
    compareBuilt sampleN sparseStore sparseStore (.list ([2, 2].map Int.ofNat)) [] missed1 missed2 = .ok none ∧
      layersAfter [2, 2] [] (missed1.map Prod.fst) = 3 ∧ layersAfter [2, 2] [] (missed2.map Prod.fst) = 4 ∧
      script sampleN (sparseBackend ℤ) (.list ([2, 2].map Int.ofNat)) [] none (missed1.map Prod.fst ++ [.measureAll]) =
        .ok [(.str "|10>".toList, 1)] ∧
      script sampleN (sparseBackend ℤ) (.list ([2, 2].map Int.ofNat)) [] none (missed2.map Prod.fst ++ [.measureAll]) =
        .ok [(.str "|01>".toList, 1)] := by
  refine ⟨rfl, rfl, rfl, ?_, ?_⟩ <;> rfl

/-- The reported layer is the third one (number 2), where `x` and `cx` first differ. -/
example : compareBuilt sampleN sparseStore sparseStore (.list ([2, 3].map Int.ofNat)) [1]
    ([(.x 0 none 1, "")] ++ (.x 0 none 1, "") :: []) ([(.x 0 none 1, "")] ++ (.cx 0 1 1, "") :: [(.x 0 none 1, "")]) =
      .ok (some 2) :=
  C81_found sampleN_sized sparse_lawful sparse_lawful rfl rfl (by simp) (validStart_of rfl)
    (by simp [Call.Valid, InRange, DimOK]) (by simp [Call.Valid, InRange, DimOK]) (by simp [Call.Valid, InRange])
    rfl rfl (by decide) (by decide) (by decide)

example : 2 ≤ 2 := C81_common_calls sampleN (S1 := sparseStore) (S2 := sparseStore) sparse_lawful sparse_lawful
  (dims := [2, 3]) (init := [1]) (validStart_of rfl) [(.x 0 none 1, "")] [(.x 0 none 1, "")]
  [(.cx 0 1 1, ""), (.x 0 none 1, "")] (i := 2) rfl

example (l : List (Call ℤ × String)) : compareBuilt sampleN sparseStore sparseStore (.list ([2, 3].map Int.ofNat)) [1]
    [(.cx 1 0 2, ""), (.x 0 none 1, "")] ([(.cx 1 0 2, ""), (.x 0 none 1, "")] ++ l) = .ok none :=
  (C81_extension sampleN_sized sparse_lawful sparse_lawful rfl rfl (by simp) (validStart_of rfl)
    (by simp [Call.Valid, InRange, DimOK]) l).1

/-- The numpy backend over the integers. -/
def numpyStore : Store ℤ := { backend := numpyBackend ℤ, hasToarray := false }

example : compareBuilt sampleN sparseStore numpyStore (.list ([2, 3].map Int.ofNat)) [] [] [(.x 0 none 1, "")] =
    .error .attribute :=
  C81_numpy sampleN sparse_lawful numpy_lawful (.inr rfl) (by simp) (validStart_of rfl) _ _ (by decide)

example : compareBuilt sampleN sparseStore sparseStore (.list ([2, 3].map Int.ofNat)) [] ([(.x 0 none 1, "")] ++ [(.measureAll, "")])
    ([(.x 0 none 1, "")] ++ [(.cx 0 1 1, ""), (.x 0 none 1, "")]) = .error .attribute :=
  (C81_measured sampleN_sized sparse_lawful sparse_lawful rfl rfl (by simp) (validStart_of rfl)
    (by simp [Call.Valid, InRange, DimOK]) "" (by decide)).1

example : compareBuilt sampleN sparseStore numpyStore (.list ([2, 3].map Int.ofNat)) [] [(.x 0 none 1, "")]
    [(.cx 0 1 1, "")] = .ok none := C81_same_depth sampleN _ _ (validStart_of rfl) _ _ rfl

end QuDiet
