import Verif.Accessors
import Verif.Props.Layers

/-! # C89: what the operators of a circuit say about themselves -/

namespace QuDiet

open Spec

variable {R : Type} [CommRing R]

/-- The operators of the layers that are of a certain kind, and the calls they come from. -/
theorem peek_drawn {q : RegsArg} (hn : q.dims ≠ []) {init : List Int} {out : Option Output}
    (ks : List (Call R)) {ls : List (List (GateObj R))} (h : peek q init out ks = .ok ls) (P : Option Drawn → Bool)
    (hP : P none = false) :
    ((ls.flatten.filter fun g => P g.drawn).map fun g => g.drawn).Perm
      (((accepted q init out ks).filter fun k => P k.drawn && decide (∃ r < q.dims.length, k.occupies r)).map
        fun k => k.drawn) := by
  obtain ⟨prep, gates, rfl, _, hprep, hF⟩ := C22_layers hn ks h
  have h0 : prep.filter (fun g => P g.drawn) = [] := by
    rw [List.filter_eq_nil_iff]
    intro g hg
    have := hprep g hg
    cases g <;> simp_all [GateObj.isInit, GateObj.drawn]
  have h1 : (if ks.any Call.isMeasureAll then [(List.range q.dims.length).map (GateObj.meas (R := R))] else
      []).flatten.filter (fun g => P g.drawn) = [] := by
    rw [List.filter_eq_nil_iff]
    split
    · intro g hg
      simp only [List.flatten_cons, List.flatten_nil, List.append_nil, List.mem_map] at hg
      obtain ⟨i, _, rfl⟩ := hg
      simp [GateObj.drawn, hP]
    · simp
  rw [List.flatten_append, List.flatten_cons, List.filter_append, List.filter_append, h0, h1, List.nil_append,
    List.append_nil, ← layering_flatten q.dims.length (accepted q init out ks)]
  generalize layering q.dims.length (accepted q init out ks) = L at hF
  clear h h0 h1 hprep
  induction hF with
  | nil => simp
  | @cons m layer gates L hm _ ih =>
    rw [List.flatten_cons, List.flatten_cons, List.filter_append, List.filter_append, List.map_append, List.map_append]
    refine List.Perm.append ?_ ih
    have := hm.filter P
    rw [List.filter_map, List.filter_map, List.filter_filter, List.filter_filter] at this
    have e : m.filter (fun g => P g.drawn) = m.filter (fun g => (P ∘ fun g : GateObj R => g.drawn) g && !g.isIdent) := by
      apply List.filter_congr
      intro g _
      cases g <;> simp [GateObj.isIdent, GateObj.drawn, hP]
    rw [e]
    exact this

/-- **C89.** After any calls, the operators in the layers (of `op_flow.peek()`) that call themselves controlled are those of
the accepted `cx` calls that reach an existing register, one for each; and these are also the ones that say they are on more
than one register. -/
theorem C89_controlled {q : RegsArg} (hn : q.dims ≠ []) {init : List Int} {out : Option Output}
    (ks : List (Call R)) {ls : List (List (GateObj R))} (h : peek q init out ks = .ok ls) :
    ((ls.flatten.filter fun g => g.isControlled = .ok true).map fun g => g.drawn).Perm
      (((accepted q init out ks).filter fun k => k.kind = some .cx ∧ ∃ r < q.dims.length, k.occupies r).map
        fun k => k.drawn) ∧
    (ls.flatten.filter fun g => g.isSingleQudit = .ok false) = ls.flatten.filter fun g => g.isControlled = .ok true := by
  constructor
  · have := peek_drawn hn ks h (fun d => match d with | some (.cx ..) => true | _ => false) rfl
    convert this using 2
    · apply List.filter_congr
      intro g _
      cases g <;> simp [GateObj.isControlled, GateObj.drawn]
    · apply List.filter_congr
      intro k _
      cases k <;> simp [Call.kind, Call.drawn]
  · apply List.filter_congr
    intro g _
    cases g <;> simp [GateObj.isControlled, GateObj.isSingleQudit]

/-- **C89** (not so for `toffoli` and custom gates). Every accepted `toffoli` call that reaches an existing register, and
every accepted `gate` call, also on several registers, has an operator in the layers that says it is on one register and not
controlled. -/
theorem C89_misreported {q : RegsArg} (hn : q.dims ≠ []) {init : List Int} {out : Option Output}
    (ks : List (Call R)) {ls : List (List (GateObj R))} (h : peek q init out ks = .ok ls) {k : Call R}
    (hk : k ∈ accepted q init out ks) (hr : ∃ r < q.dims.length, k.occupies r)
    (hkind : k.kind = some .toffoli ∨ k.kind = some .arbitary) :
    ∃ m ∈ ls, ∃ g ∈ m, g.drawn = k.drawn ∧ g.isControlled = .ok false ∧ g.isSingleQudit = .ok true := by
  have hp := peek_drawn hn ks h (fun d => match d with | some (.toffoli ..) | some (.custom _) => true | _ => false) rfl
  have : k.drawn ∈ (((accepted q init out ks).filter fun k => (match k.drawn with
      | some (.toffoli ..) | some (.custom _) => true | _ => false) &&
      decide (∃ r < q.dims.length, k.occupies r)).map fun k => k.drawn) := by
    refine List.mem_map.2 ⟨k, List.mem_filter.2 ⟨hk, ?_⟩, rfl⟩
    rw [Bool.and_eq_true, decide_eq_true_eq]
    refine ⟨?_, hr⟩
    cases k <;> simp [Call.kind, Call.drawn] at hkind ⊢
  obtain ⟨g, hg, he⟩ := List.mem_map.1 (hp.mem_iff.2 this)
  obtain ⟨hg, hd⟩ := List.mem_filter.1 hg
  obtain ⟨m, hm, hgm⟩ := List.mem_flatten.1 hg
  refine ⟨m, hm, g, hgm, he, ?_⟩
  cases g <;> simp [GateObj.drawn, GateObj.isControlled, GateObj.isSingleQudit] at hd ⊢

/-- The hypotheses: a circuit with a `cx`, a `toffoli` and a custom gate on three registers. -/
example : ∃ ls, peek (.list [2, 2, 3]) [] none
      [(.cx 0 2 1 : Call ℤ), .h 1 none, .toffoli [0, 1] 2 1, .gate (Mat.eye 12) (.list [0, 1, 2]) none, .measureAll] = .ok ls ∧
    (ls.flatten.filter fun g => g.isControlled = .ok true).length = 1 ∧
    .toffoli [0, 1] 2 1 ∈ accepted (.list [2, 2, 3]) [] none
      [(.cx 0 2 1 : Call ℤ), .h 1 none, .toffoli [0, 1] 2 1, .gate (Mat.eye 12) (.list [0, 1, 2]) none, .measureAll] ∧
    (∃ r < 3, (Call.toffoli [0, 1] 2 1 : Call ℤ).occupies r) := by
  refine ⟨_, rfl, rfl, ?_, 0, by decide, ?_⟩
  · have : accepted (.list [2, 2, 3]) [] none
      [(.cx 0 2 1 : Call ℤ), .h 1 none, .toffoli [0, 1] 2 1, .gate (Mat.eye 12) (.list [0, 1, 2]) none, .measureAll] =
      [(.cx 0 2 1 : Call ℤ), .h 1 none, .toffoli [0, 1] 2 1, .gate (Mat.eye 12) (.list [0, 1, 2]) none] := rfl
    rw [this]
    simp
  · simp [Call.occupies, Call.regs]

end QuDiet
