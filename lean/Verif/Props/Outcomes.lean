import Verif.Props.Codec
import Verif.Props.Laws2
import Verif.Props.Algorithms

/-! # C100: how many outcomes `run()` lists -/

namespace QuDiet
open Spec

variable {R : Type} [CommRing R] [StarRing R] [DecidableEq R] [UnitaryCheck R]

/-! ### Specification -/

/-- By how much a call can multiply the number of outcomes: a Hadamard gate and a custom gate by the
number of levels, or of combinations of levels, of what they act on, and the other gates by nothing. -/
def Call.branches (dims : List Nat) : Call R → Nat
  | .h q _ => dims.getD q.toNat 0
  | .gate _ (.int q) _ => dims.getD q.toNat 0
  | .gate _ (.list qs) _ => ((dims.drop (spanOf qs).1).take (spanOf qs).2).prod
  | _ => 1

/-! ### Proofs -/

theorem exists_ne_of_sum {α : Type} {l : List α} {f : α → R} (h : (l.map f).sum ≠ 0) : ∃ a ∈ l, f a ≠ 0 := by
  by_contra hc
  push Not at hc
  refine h ?_
  rw [List.map_congr_left hc]
  simp

theorem outcome_length (dims : List Nat) (ψ : State R) :
    (outcome dims ψ).length = ((states dims).filter fun s => ψ s ≠ 0).length := by
  simp [outcome]

/-- If every outcome of `φ` is one of at most `b` variants of an outcome of `ψ`, then `φ` has at most `b`
times as many outcomes. -/
theorem outcome_variants {dims : List Nat} {φ ψ : State R} {b : Nat} (v : List Nat → List (List Nat))
    (hb : ∀ s, (v s).length = b)
    (h : ∀ s, Fits dims s → φ s ≠ 0 → ∃ t, Fits dims t ∧ ψ t ≠ 0 ∧ s ∈ v t) :
    (outcome dims φ).length ≤ (outcome dims ψ).length * b := by
  rw [outcome_length, outcome_length]
  have hsub : ((states dims).filter fun s => φ s ≠ 0) ⊆
      ((states dims).filter fun s => ψ s ≠ 0).flatMap v := by
    intro s hs
    simp only [List.mem_filter, decide_eq_true_eq, mem_states] at hs
    obtain ⟨t, h1, h2, h3⟩ := h s hs.1 hs.2
    exact List.mem_flatMap.2 ⟨t, by simpa [mem_states] using ⟨h1, h2⟩, h3⟩
  have := (List.subperm_of_subset ((nodup_states dims).filter _) hsub).length_le
  refine this.trans (le_of_eq ?_)
  rw [List.length_flatMap]
  simp only [hb, List.map_const', List.sum_replicate, smul_eq_mul]

theorem outcome_onReg {dims : List Nat} {q : Nat} (hq : q < dims.length) (G : Nat → Nat → R) (ψ : State R) :
    (outcome dims (onReg (dims.getD q 0) q G ψ)).length ≤ (outcome dims ψ).length * dims.getD q 0 := by
  refine outcome_variants (fun s => (List.range (dims.getD q 0)).map fun k => s.set q k) (by simp) ?_
  intro s hs hne
  obtain ⟨k, hk, h⟩ := exists_ne_of_sum hne
  refine ⟨s.set q k, fits_set hs q k (List.mem_range.1 hk), right_ne_zero_of_mul h, ?_⟩
  have hsq : q < s.length := by rw [hs.1]; exact hq
  refine List.mem_map.2 ⟨s[q], ?_, by simp⟩
  rw [List.mem_range, List.getD_eq_getElem?_getD, List.getElem?_eq_getElem hq, Option.getD_some]
  exact hs.2 q hsq hq

theorem outcome_phases {dims : List Nat} {q : Nat} (w : List R) (ψ : State R) :
    (outcome dims (onReg (dims.getD q 0) q (phases w) ψ)).length ≤ (outcome dims ψ).length := by
  have := outcome_variants (dims := dims) (φ := onReg (dims.getD q 0) q (phases w) ψ) (ψ := ψ) (b := 1)
    (fun s => [s]) (by simp) (fun s hs hne => by
      obtain ⟨k, hk, h⟩ := exists_ne_of_sum hne
      have h1 : s.getD q 0 = k := by
        by_contra hc
        exact h (by rw [phases, if_neg hc, zero_mul])
      have h2 : s.set q k = s := by
        by_cases hq : q < s.length
        · rw [← h1, List.getD_eq_getElem?_getD, List.getElem?_eq_getElem hq, Option.getD_some, List.set_getElem_self]
        · rw [List.set_eq_of_length_le (by omega)]
      refine ⟨s, hs, ?_, by simp⟩
      rw [h2] at h
      exact right_ne_zero_of_mul h)
  simpa using this

theorem outcome_move {dims : List Nat} (f : List Nat → List Nat) (ψ : State R) :
    (outcome dims (move dims f ψ)).length ≤ (outcome dims ψ).length := by
  have := outcome_variants (dims := dims) (φ := move dims f ψ) (ψ := ψ) (b := 1)
    (fun s => [f s]) (by simp) (fun s _ hne => by
      obtain ⟨t, ht, h⟩ := exists_ne_of_sum hne
      simp only [List.mem_filter, mem_states, decide_eq_true_eq] at ht
      exact ⟨t, ht.1, h, by simp [ht.2]⟩)
  simpa using this

theorem outcome_onBlock {dims : List Nat} {lb len : Nat} (hl : lb + len ≤ dims.length) (U : Nat → Nat → R)
    (ψ : State R) :
    (outcome dims (onBlock dims lb len U ψ)).length ≤
      (outcome dims ψ).length * ((dims.drop lb).take len).prod := by
  refine outcome_variants
    (fun s => (states ((dims.drop lb).take len)).map fun m => s.take lb ++ m ++ s.drop (lb + len))
    (by simp [length_states]) ?_
  intro s hs hne
  obtain ⟨m, hm, h⟩ := exists_ne_of_sum hne
  rw [mem_states] at hm
  have hsl := hs.1
  have hml : m.length = len := by rw [hm.1]; simp; omega
  have e1 : dims.take lb ++ ((dims.drop lb).take len ++ dims.drop (lb + len)) = dims := by
    rw [← List.drop_drop, List.take_append_drop, List.take_append_drop]
  have e2 : s.take lb ++ ((s.drop lb).take len ++ s.drop (lb + len)) = s := by
    rw [← List.drop_drop, List.take_append_drop, List.take_append_drop]
  have hs' := hs
  rw [← e1, ← e2, fits_append (by simp; omega), fits_append (by simp; omega)] at hs'
  refine ⟨s.take lb ++ m ++ s.drop (lb + len), ?_, right_ne_zero_of_mul h, ?_⟩
  · rw [List.append_assoc]
    conv => arg 1; rw [← e1]
    rw [fits_append (by simp; omega), fits_append (by simp; omega)]
    exact ⟨hs'.1, hm, hs'.2.2⟩
  · refine List.mem_map.2 ⟨(s.drop lb).take len, mem_states.2 hs'.2.1, ?_⟩
    have h1 : (s.take lb).length = lb := by simp; omega
    have h2 : (s.take lb ++ m ++ s.drop (lb + len)).take lb = s.take lb := by
      rw [List.append_assoc, List.take_left' h1]
    have h3 : (s.take lb ++ m ++ s.drop (lb + len)).drop (lb + len) = s.drop (lb + len) := by
      rw [List.drop_left' (by simp; omega)]
    rw [h2, h3, List.append_assoc, e2]

theorem outcome_call {N : Numerics R} {dims : List Nat} {k : Call R} (hk : k.Valid dims) (ψ : State R) :
    (outcome dims (meaning N dims k ψ)).length ≤ (outcome dims ψ).length * k.branches dims := by
  have reg : ∀ {q : Int}, InRange dims q → q.toNat < dims.length := fun hq => by
    have h1 := hq.1
    have h2 := hq.2
    omega
  cases k with
  | h q k => exact outcome_onReg (reg hk.1) _ ψ
  | z q k => simpa [meaning, Call.branches] using outcome_phases (dims := dims) (q := q.toNat) (N.roots _) ψ
  | x q k p => simpa [meaning, Call.branches] using outcome_move (dims := dims) _ ψ
  | cx c t p => simpa [meaning, Call.branches] using outcome_move (dims := dims) _ ψ
  | toffoli cs t p => simpa [meaning, Call.branches] using outcome_move (dims := dims) _ ψ
  | gate U r k =>
    cases r with
    | int q => exact outcome_onReg (reg hk.1) _ ψ
    | list qs => exact outcome_onBlock (span_in hk.1 hk.2.1).1 _ ψ
  | measure => exact hk.elim
  | measureAll => exact hk.elim

theorem outcome_calls {N : Numerics R} {dims : List Nat} {ks : List (Call R)} (hks : ∀ k ∈ ks, k.Valid dims)
    (ψ : State R) :
    (outcome dims (ks.foldl (fun ψ k => meaning N dims k ψ) ψ)).length ≤
      (outcome dims ψ).length * (ks.map (Call.branches dims)).prod := by
  induction ks generalizing ψ with
  | nil => simp
  | cons k ks ih =>
    rw [List.forall_mem_cons] at hks
    refine (ih hks.2 _).trans ?_
    rw [List.map_cons, List.prod_cons, ← Nat.mul_assoc]
    exact Nat.mul_le_mul_right _ (outcome_call hks.1 ψ)

/-! ### C100 -/

/-- **C100.** Whatever the output format, `run()` lists no more outcomes than the product of the numbers of levels of
what its Hadamard and custom gates act on, each counted as often as it is called, and no more than the registers have
combinations of levels. Calls of `x`, `cx`, `toffoli` and `z` are free. -/
theorem C100_at_most [Nontrivial R] {N : Numerics R} (hN : N.Sized) {B : Backend R} (hB : B.Lawful)
    {dims : List Nat} (hne : dims ≠ []) {init : List Int} (h : ValidStart (dims.map Int.ofNat) init)
    {out : Option Output} (ho : ∀ o ∈ out, o.base = dims) {ks : List (Call R)} (hks : ∀ k ∈ ks, k.Valid dims) :
    ∃ l, script N B (.list (dims.map Int.ofNat)) init out (ks ++ [.measureAll]) = .ok l ∧
      l.length ≤ (ks.map (Call.branches dims)).prod ∧ l.length ≤ dims.prod := by
  refine ⟨_, script_valid hN hB hne h ho hks [], ?_, ?_⟩
  · rw [listing, List.length_map]
    refine (outcome_calls hks _).trans ?_
    rw [outcome_basis (startLevels_fits h)]
    simp
  · rw [listing, List.length_map, outcome_length, ← length_states]
    exact List.length_filter_le _ _

/-- **C100**, between any two points of a program: further calls multiply the number of outcomes listed at most by
what they can branch into. -/
theorem C100_growth [Nontrivial R] {N : Numerics R} (hN : N.Sized) {B : Backend R} (hB : B.Lawful)
    {dims : List Nat} (hne : dims ≠ []) {init : List Int} (h : ValidStart (dims.map Int.ofNat) init)
    {out out' : Option Output} (ho : ∀ o ∈ out, o.base = dims) (ho' : ∀ o ∈ out', o.base = dims)
    {ks js : List (Call R)} (hks : ∀ k ∈ ks, k.Valid dims) (hjs : ∀ k ∈ js, k.Valid dims) :
    ∃ l l', script N B (.list (dims.map Int.ofNat)) init out (ks ++ [.measureAll]) = .ok l ∧
      script N B (.list (dims.map Int.ofNat)) init out' (ks ++ js ++ [.measureAll]) = .ok l' ∧
      l'.length ≤ l.length * (js.map (Call.branches dims)).prod := by
  refine ⟨_, _, script_valid hN hB hne h ho hks [], script_valid hN hB hne h ho' (ks := ks ++ js) ?_ [], ?_⟩
  · intro k hk
    rcases List.mem_append.1 hk with hk | hk
    exacts [hks k hk, hjs k hk]
  · rw [listing, listing, List.length_map, List.length_map, stateAfter, stateAfter, List.foldl_append]
    exact outcome_calls hjs _

/-- **C100**: a call of `x`, of `cx` on two different registers or of `toffoli` leaves the number of listed outcomes
as it is. -/
theorem C100_kept [Nontrivial R] {N : Numerics R} (hN : N.Sized) {B : Backend R} (hB : B.Lawful)
    {dims : List Nat} (hne : dims ≠ []) {init : List Int} (h : ValidStart (dims.map Int.ofNat) init)
    {ks : List (Call R)} {a : Call R} (hks : ∀ k ∈ ks, k.Valid dims) (ha : a.Valid dims) (hc : a.Classical)
    (hp : a.Proper) :
    ∃ l l', script N B (.list (dims.map Int.ofNat)) init none (ks ++ [.measureAll]) = .ok l ∧
      script N B (.list (dims.map Int.ofNat)) init none (ks ++ [a] ++ [.measureAll]) = .ok l' ∧
      l'.length = l.length := by
  obtain ⟨es, es', _, h1, h2, h3⟩ := C49_increments_relabel hN hB hne h hks ha hc hp
  refine ⟨_, _, h1.2, h2.2, ?_⟩
  simpa using h3.length_eq

/-- **C100**: the bound is reached, for any registers: `h` on each register once. -/
theorem C100_reached {N : Numerics ℂ} (hN : N.Exact) {B : Backend ℂ} (hB : B.Lawful) {dims : List Nat}
    (hne : dims ≠ []) (hd : ∀ d ∈ dims, 2 ≤ d) :
    ∃ l, script N B (.list (dims.map Int.ofNat)) [] none (hOnFirst dims.length ++ [.measureAll]) = .ok l ∧
      l.length = dims.prod ∧ ((hOnFirst dims.length : List (Call ℂ)).map (Call.branches dims)).prod = dims.prod := by
  have h0 : ValidStart (dims.map Int.ofNat) [] := by
    refine ⟨?_, by simp, by simp⟩
    intro d hd'
    obtain ⟨e, he, rfl⟩ := List.mem_map.1 hd'
    have := hd e he
    simp
    omega
  have hv : ∀ k ∈ (hOnFirst dims.length : List (Call ℂ)), k.Valid dims := hOnFirst_valid (le_refl _)
  refine ⟨_, script_valid hN.sized hB hne h0 (out := none) (by simp) hv [], ?_, ?_⟩
  · rw [listing, List.length_map, outcome_length, ← length_states]
    congr 1
    rw [List.filter_eq_self]
    intro s hs
    have hpos : 0 < dims.prod := by
      apply List.prod_pos
      intro d h
      have := hd d h
      omega
    have := C61_uniform hN hB hne hd s
    rw [amplitude_eq hN.sized hB hne h0 hv (mem_states.1 hs), if_pos hs] at this
    rw [this]
    have hr : Real.sqrt dims.prod ≠ 0 := by
      rw [Real.sqrt_ne_zero']
      exact_mod_cast hpos
    exact decide_eq_true (by exact_mod_cast one_div_ne_zero hr)
  · rw [hOnFirst, List.map_map]
    have := map_range_getD (fun d => d) dims
    rw [List.map_id'] at this
    conv => rhs; rw [← this]
    rfl

/-- **C100** for qubits: with `n` calls of `h` among calls of `x`, `z`, `cx` and `toffoli`, `run()` lists at most `2 ^ n`
outcomes. -/
theorem C100_qubits [Nontrivial R] {N : Numerics R} (hN : N.Sized) {B : Backend R} (hB : B.Lawful)
    {m : Nat} (hm : 0 < m) {init : List Int} (h : ValidStart ((List.replicate m 2).map Int.ofNat) init)
    {ks : List (Call R)} (hks : ∀ k ∈ ks, k.Valid (List.replicate m 2))
    (hg : ∀ k ∈ ks, (match k with | .gate .. => false | _ => true) = true) :
    ∃ l, script N B (.list ((List.replicate m 2).map Int.ofNat)) init none (ks ++ [.measureAll]) = .ok l ∧
      l.length ≤ 2 ^ (ks.countP fun k => match k with | .h .. => true | _ => false) := by
  obtain ⟨l, h1, h2, _⟩ := C100_at_most hN hB (by simp; omega) h (out := none) (by simp) hks
  refine ⟨l, h1, h2.trans (le_of_eq ?_)⟩
  clear h1 h2
  induction ks with
  | nil => simp
  | cons k ks ih =>
    rw [List.forall_mem_cons] at hks hg
    rw [List.map_cons, List.prod_cons, ih hks.2 hg.2, List.countP_cons]
    cases k with
    | h q k =>
      have hq := hks.1.1
      have h1 := hq.1
      have h2 := hq.2
      rw [List.length_replicate] at h2
      have : (List.replicate m 2).getD q.toNat 0 = 2 := by
        rw [List.getD_eq_getElem?_getD, List.getElem?_replicate, if_pos (by omega)]
        rfl
      simp only [Call.branches, this]
      rw [if_pos trivial, Nat.pow_succ, Nat.mul_comm]
    | gate U r k => simp at hg
    | _ => simp [Call.branches]

/-! ### Cases -/

/-- A qubit, a qutrit and a ququart: two calls of `h`, among others, list at most 6 of the 24 outcomes. -/
example {N : Numerics R} [Nontrivial R] (hN : N.Sized) {B : Backend R} (hB : B.Lawful) :
    ∃ l, script N B (.list [2, 3, 4]) [1, 2] none
      ([.h 0 none, .x 1 none 1, .h 1 none, .cx 1 2 3, .z 2 none, .toffoli [0, 1] 2 1] ++ [.measureAll]) = .ok l ∧
      l.length ≤ 6 := by
  obtain ⟨l, h1, h2, _⟩ := C100_at_most hN hB (dims := [2, 3, 4]) (by simp) (init := [1, 2]) (validStart_of rfl) (out := none) (by simp)
    (ks := [.h 0 none, .x 1 none 1, .h 1 none, .cx 1 2 3, .z 2 none, .toffoli [0, 1] 2 1])
    (by simp [Call.Valid, InRange, DimOK, spanOf])
  exact ⟨l, h1, by simpa [Call.branches] using h2⟩

example {N : Numerics R} [Nontrivial R] (hN : N.Sized) {B : Backend R} (hB : B.Lawful) :=
  C100_growth hN hB (dims := [2, 3, 4]) (by simp) (init := [1, 2]) (validStart_of rfl) (out := none)
    (out' := some ⟨[2, 3, 4], .state, .probability⟩) (by simp) (by simp)
    (ks := [.h 0 none, .x 1 none 1]) (js := [.h 1 none, .cx 1 2 3, .z 2 none])
    (by simp [Call.Valid, InRange, DimOK]) (by simp [Call.Valid, InRange, DimOK])

example {N : Numerics R} [Nontrivial R] (hN : N.Sized) {B : Backend R} (hB : B.Lawful) :=
  C100_kept hN hB (dims := [2, 3, 4]) (by simp) (init := [1, 2]) (validStart_of rfl)
    (ks := [.h 0 none, .h 1 none]) (a := .toffoli [0, 1] 2 (-1))
    (by simp [Call.Valid, InRange, DimOK]) (by simp [Call.Valid, InRange, spanOf]) trivial
    (by simp [Call.Proper, Call.target, Call.controls])

example : ∃ l, script standardN (numpyBackend ℂ) (.list [2, 3, 5]) [] none (hOnFirst 3 ++ [.measureAll]) = .ok l ∧
    l.length = 30 := by
  obtain ⟨l, h1, h2, _⟩ := C100_reached standardN_exact (B := numpyBackend ℂ) numpy_lawful (dims := [2, 3, 5]) (by simp) (by simp)
  exact ⟨l, h1, h2⟩

/-- A GHZ program: one `h` and any number of `cx`. -/
example {N : Numerics R} [Nontrivial R] (hN : N.Sized) {B : Backend R} (hB : B.Lawful) :=
  C100_qubits hN hB (m := 4) (by simp) (init := []) (validStart_of rfl)
    (ks := [.h 0 none, .cx 0 1 1, .cx 1 2 1, .cx 2 3 1]) (by simp [Call.Valid, InRange, DimOK]) (by simp)

end QuDiet
