import Verif.Lemmas.Backend

/-! # Scripts -/

namespace QuDiet
open Spec

variable {R : Type} [CommRing R] [StarRing R] [DecidableEq R] [UnitaryCheck R] {N : Numerics R} {B : Backend R}

theorem script_eq (N : Numerics R) (hB : B.Lawful) {q : RegsArg} {dims : List Nat}
    (hq : q.dims = dims.map Int.ofNat) {init : List Int}
    (h : ValidStart (dims.map Int.ofNat) init) (out : Option Output) (ks : List (Call R)) :
    script N B q init out ks =
      ((freshCircuit q dims init out).calls ks).runResult N (numpyBackend R) := by
  unfold script
  rw [new_ok hq h out]
  change (Circuit.run N B ((freshCircuit q dims init out).calls ks)).2 = _
  rw [← runResult_backend hB]
  unfold Circuit.run
  cases Circuit.runResult N B ((freshCircuit q dims init out).calls ks) <;> rfl

theorem list_toRegs (dims : List Nat) : (RegsArg.list (dims.map Int.ofNat)).toRegs.seq = dims := by
  simp [RegsArg.toRegs, Regs.seq, Function.comp_def]

theorem fresh_output (dims : List Nat) (init : List Int) (out : Option Output) :
    (freshCircuit (R := R) (.list (dims.map Int.ofNat)) dims init out).output = format dims out := by
  unfold freshCircuit format
  simp only [list_toRegs]

theorem format_base {dims : List Nat} {out : Option Output} (ho : ∀ o ∈ out, o.base = dims) :
    (format dims out).base = dims := by
  unfold format
  cases out with
  | none => rfl
  | some o => exact ho o rfl

section
variable [Nontrivial R] (hN : N.Sized) (hB : B.Lawful) {dims : List Nat} (hne : dims ≠ [])
  {init : List Int} (h : ValidStart (dims.map Int.ofNat) init) (out : Option Output)
  (ks : List (Call R)) (hreg : ∀ k ∈ live ks, Regular dims k)
include hN hB hne h hreg

omit hN hB hreg in
theorem length_pos_of_ne : 0 < dims.length := List.length_pos_of_ne_nil hne

theorem script_unmeasured (hm : .measureAll ∉ ks) :
    script N B (.list (dims.map Int.ofNat)) init out ks = .error .assertion := by
  have := exec_total hN (List.length_pos_of_ne_nil hne) h out ks hreg (q := .list (dims.map Int.ofNat))
    (fun _ => list_toRegs dims)
  rw [script_eq N hB rfl h]
  unfold Circuit.runResult
  rw [this.2.1]
  · rfl
  · intro k hk
    cases k <;> simp_all [Call.isMeasureAll]

theorem script_broken (hb : ∃ k ∈ live ks, fate dims k = .broken) :
    ∃ e, script N B (.list (dims.map Int.ofNat)) init out ks = .error e := by
  by_cases hm : .measureAll ∈ ks
  · have := exec_total hN (List.length_pos_of_ne_nil hne) h out ks hreg (q := .list (dims.map Int.ofNat))
      (fun _ => list_toRegs dims)
    rw [script_eq N hB rfl h]
    unfold Circuit.runResult
    obtain ⟨e, he⟩ := this.2.2.1 hm hb
    rw [he]
    exact ⟨e, rfl⟩
  · exact ⟨_, script_unmeasured hN hB hne h out ks hreg hm⟩

theorem script_ok (ho : ∀ o ∈ out, o.base = dims) (hm : .measureAll ∈ ks)
    (hb : ∀ k ∈ live ks, fate dims k ≠ .broken) :
    script N B (.list (dims.map Int.ofNat)) init out ks =
      .ok (listing (format dims out) dims (finalState N dims (startLevels dims init) (live ks))) := by
  have := exec_total hN (List.length_pos_of_ne_nil hne) h out ks hreg (q := .list (dims.map Int.ofNat))
    (fun _ => list_toRegs dims)
  rw [script_eq N hB rfl h]
  unfold Circuit.runResult
  obtain ⟨w, hw, hv⟩ := this.2.2.2 hm hb
  rw [hw, this.1, fresh_output]
  exact output_vec hv _ (format_base ho)

end

/-! ### Valid calls -/

theorem getD_dimAt {dims : List Nat} {q : Int} (h : InRange dims q) : dims.getD q.toNat 0 = dimAt dims q :=
  getD_eq_dimAt h.1 h.2

theorem dimOK_iff {dims : List Nat} (h2 : ∀ d ∈ dims, 2 ≤ d) {q : Int} (h : InRange dims q) {k : Option Nat} :
    DimOK dims q k ↔ (k.getD 0 = 0 ∨ k.getD 0 = dimAt dims q) := by
  unfold DimOK
  rw [getD_dimAt h]
  have := dimAt_ge_two h2 h.1 h.2
  cases k with
  | none => simp
  | some k => simp

theorem valid_fateOne {dims : List Nat} (h2 : ∀ d ∈ dims, 2 ≤ d) {q : Int} (h : InRange dims q)
    {k : Option Nat} (hk : DimOK dims q k) {good : Bool} (hg : good = true) :
    fateOne dims q k good = .applied := by
  have hk' := (dimOK_iff h2 h).1 hk
  have := h.1
  have := h.2
  unfold fateOne
  rw [if_neg (by omega), if_neg (by rcases hk' with h | h <;> omega), if_neg (by omega), if_pos ⟨hk', hg⟩]

theorem Call.Valid.applied {dims : List Nat} (h2 : ∀ d ∈ dims, 2 ≤ d) {k : Call R} (h : k.Valid dims) :
    fate dims k = .applied := by
  cases k with
  | h q k => exact valid_fateOne h2 h.1 h.2 rfl
  | z q k => exact valid_fateOne h2 h.1 h.2 rfl
  | x q k p =>
    obtain ⟨h1, h3, h4, h5⟩ := h
    apply valid_fateOne h2 h1 h3
    rw [getD_dimAt h1] at h4 h5
    simp [h4, h5]
  | cx c t p =>
    obtain ⟨⟨h1, h2⟩, h3, h4⟩ := h
    simp only [fate]
    rw [if_pos (by omega)]
  | toffoli cs t p =>
    obtain ⟨h1, h3, h4, h5⟩ := h
    have hall : ∀ q ∈ cs ++ [t], InRange dims q := by
      intro q hq
      rcases List.mem_append.1 hq with hq | hq
      · exact h3 q hq
      · rw [List.mem_singleton] at hq
        rw [hq]; exact h1
    simp only [fate]
    rw [if_neg (by rintro ⟨q, hq, h⟩; have := hall q hq; unfold InRange at this; omega),
      if_neg (by intro h; have := h t (by simp); unfold InRange at h1; omega),
      if_neg (by rintro ⟨q, hq, h⟩; have := hall q hq; unfold InRange at this; omega),
      if_pos ⟨h5, .inl h4⟩]
  | gate U q k =>
    cases q with
    | int q =>
      obtain ⟨h1, h3, h4, h5, h6⟩ := h
      apply valid_fateOne h2 h1 h3
      rw [getD_dimAt h1] at h5 h6
      simp [h4, h5, h6]
    | list qs =>
      obtain ⟨h1, h3, h4, h5, h6, h7, h8⟩ := h
      obtain ⟨q0, hq0⟩ := List.exists_mem_of_ne_nil qs h1
      simp only [fate]
      rw [if_neg, if_neg, if_neg, if_neg (by simp [h6]), if_neg, if_pos ⟨h7, h8⟩]
      · rintro (h | h | h)
        · exact h.1 h4
        · exact h5 h.2
        · exact h.2.2 ⟨h7, h8⟩
      · rintro ⟨q, hq, h⟩; have := h3 q hq; unfold InRange at this; omega
      · intro h; have := h q0 hq0; have := h3 q0 hq0; unfold InRange at this; omega
      · rintro (h | ⟨q, hq, h⟩ | ⟨q, hq, h⟩)
        · exact h1 h
        · have := h3 q hq; unfold InRange at this; omega
        · omega
  | measure q => exact h.elim
  | measureAll => exact h.elim

theorem Call.Valid.not_measureAll {dims : List Nat} {k : Call R} (h : k.Valid dims) :
    k.isMeasureAll = false := by
  cases k <;> first | rfl | exact h.elim

theorem live_append_measure {ks rest : List (Call R)} (h : ∀ k ∈ ks, k.isMeasureAll = false) :
    live (ks ++ .measureAll :: rest) = ks := by
  induction ks with
  | nil => rfl
  | cons k ks ih =>
    rw [List.cons_append]
    unfold live
    rw [List.takeWhile_cons_of_pos (by simp [h k (by simp)])]
    congr 1
    exact ih fun k hk => h k (by simp [hk])

theorem live_prefix {ks rest : List (Call R)} (h : ∀ k ∈ ks, k.isMeasureAll = false) :
    live (ks ++ rest) = ks ++ live rest := by
  induction ks with
  | nil => rfl
  | cons k ks ih =>
    rw [List.cons_append]
    unfold live
    rw [List.takeWhile_cons_of_pos (by simp [h k (by simp)]), List.cons_append]
    congr 1
    exact ih fun k hk => h k (by simp [hk])

theorem ge_two_of_valid {dims : List Nat} {init : List Int} (h : ValidStart (dims.map Int.ofNat) init) :
    ∀ d ∈ dims, 2 ≤ d := by
  intro d hd
  have := h.1 (Int.ofNat d) (List.mem_map.2 ⟨d, hd, rfl⟩)
  simp at this
  omega

theorem finalState_valid {dims : List Nat} (h2 : ∀ d ∈ dims, 2 ≤ d) {init : List Int} {ks : List (Call R)}
    (h : ∀ k ∈ ks, k.Valid dims) :
    finalState N dims (startLevels dims init) ks = stateAfter N dims init ks := by
  unfold finalState stateAfter
  rw [List.filter_eq_self.2]
  intro k hk
  simp [(h k hk).applied h2]

/-- Valid calls, `measure_all()`, then anything. -/
theorem script_valid [Nontrivial R] (hN : N.Sized) (hB : B.Lawful) {dims : List Nat} (hne : dims ≠ [])
    {init : List Int} (h : ValidStart (dims.map Int.ofNat) init) {out : Option Output}
    (ho : ∀ o ∈ out, o.base = dims) {ks : List (Call R)} (hks : ∀ k ∈ ks, k.Valid dims)
    (rest : List (Call R)) :
    script N B (.list (dims.map Int.ofNat)) init out (ks ++ .measureAll :: rest) =
      .ok (listing (format dims out) dims (stateAfter N dims init ks)) := by
  have h2 := ge_two_of_valid h
  have hl : live (ks ++ .measureAll :: rest) = ks := live_append_measure fun k hk => (hks k hk).not_measureAll
  rw [script_ok hN hB hne h out _ _ ho (by simp), hl, finalState_valid h2 hks]
  · rw [hl]
    intro k hk
    rw [(hks k hk).applied h2]
    simp
  · rw [hl]
    intro k hk
    unfold Regular
    rw [(hks k hk).applied h2]
    simp

/-- Whatever the output format, the result depends only on the state after the calls. -/
theorem script_congr [Nontrivial R] (hN : N.Sized) (hB : B.Lawful) {dims : List Nat} (hne : dims ≠ [])
    {init init' : List Int} (h : ValidStart (dims.map Int.ofNat) init) (h' : ValidStart (dims.map Int.ofNat) init')
    (out : Option Output) {ks ks' : List (Call R)} (hks : ∀ k ∈ ks, k.Valid dims) (hks' : ∀ k ∈ ks', k.Valid dims)
    (heq : EqOn dims (stateAfter N dims init ks) (stateAfter N dims init' ks')) (rest rest' : List (Call R)) :
    script N B (.list (dims.map Int.ofNat)) init out (ks ++ .measureAll :: rest) =
      script N B (.list (dims.map Int.ofNat)) init' out (ks' ++ .measureAll :: rest') := by
  have h2 := ge_two_of_valid h
  have key : ∀ {init : List Int} {ks : List (Call R)} (rest : List (Call R)), ValidStart (dims.map Int.ofNat) init →
      (∀ k ∈ ks, k.Valid dims) → ∃ w : Mat R, IsVec dims w (stateAfter N dims init ks) ∧
        script N B (.list (dims.map Int.ofNat)) init out (ks ++ .measureAll :: rest) = (format dims out).call w := by
    intro init ks rest h hks
    have hl : live (ks ++ .measureAll :: rest) = ks := live_append_measure fun k hk => (hks k hk).not_measureAll
    have hreg : ∀ k ∈ live (ks ++ .measureAll :: rest), Regular dims k := by
      rw [hl]
      intro k hk
      unfold Regular
      rw [(hks k hk).applied h2]
      simp
    have := exec_total hN (List.length_pos_of_ne_nil hne) h out (ks ++ .measureAll :: rest) hreg
      (q := .list (dims.map Int.ofNat)) (fun _ => list_toRegs dims)
    obtain ⟨w, hw, hv⟩ := this.2.2.2 (by simp) (by
      rw [hl]
      intro k hk
      rw [(hks k hk).applied h2]
      simp)
    rw [hl, finalState_valid h2 hks] at hv
    refine ⟨w, hv, ?_⟩
    rw [script_eq N hB rfl h]
    unfold Circuit.runResult
    rw [hw, this.1, fresh_output]
    rfl
  obtain ⟨w, hv, e⟩ := key rest h hks
  obtain ⟨w', hv', e'⟩ := key rest' h' hks'
  rw [e, e']
  unfold Output.call
  rw [nonzeroRows_vec hv, nonzeroRows_vec hv', List.mapM_map, List.mapM_map]
  have hf : ((states dims).filter fun s => stateAfter N dims init ks s ≠ 0) =
      (states dims).filter fun s => stateAfter N dims init' ks' s ≠ 0 := by
    apply List.filter_congr
    intro s hs
    rw [heq s (mem_states.1 hs)]
  rw [hf]
  apply mapM_congr'
  intro s hs
  have hs' := mem_states.1 (List.mem_of_mem_filter hs)
  simp only [Function.comp_apply, hv.2.2 s hs', hv'.2.2 s hs', heq s hs']

end QuDiet
