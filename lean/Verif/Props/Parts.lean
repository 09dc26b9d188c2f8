import Verif.Lemmas.Parts
import Verif.Props.Laws2

/-! # C51: independent parts of a circuit -/

namespace QuDiet
open Spec

variable {R : Type} [CommRing R] [StarRing R] [DecidableEq R] [UnitaryCheck R]

/-- Initial levels for all of `n` registers. -/
def padTo (n : Nat) (init : List Int) : List Int := init ++ List.replicate (n - init.length) 0

/-- The product of two lists of outcomes, in lexicographic order. -/
def pairs (es1 es2 : List (List Nat × R)) : List (List Nat × R) :=
  es1.flatMap fun e1 => es2.map fun e2 => (e1.1 ++ e2.1, e1.2 * e2.2)

/-- The state of two independent groups of registers, the first of `n` registers. -/
def tensor (n : Nat) (ψ1 ψ2 : State R) : State R := fun s => ψ1 (s.take n) * ψ2 (s.drop n)

omit [CommRing R] [StarRing R] [DecidableEq R] [UnitaryCheck R] in
theorem states_append (d1 d2 : List Nat) :
    states (d1 ++ d2) = (states d1).flatMap fun s1 => (states d2).map fun s2 => s1 ++ s2 := by
  induction d1 with
  | nil => simp [states]
  | cons d d1 ih =>
    simp only [List.cons_append, states, ih, List.flatMap_assoc, List.map_flatMap, List.map_map,
      List.flatMap_map]
    rfl

omit [StarRing R] in
theorem outcome_tensor [NoZeroDivisors R] (d1 d2 : List Nat) (ψ1 ψ2 : State R) :
    outcome (d1 ++ d2) (tensor d1.length ψ1 ψ2) = pairs (outcome d1 ψ1) (outcome d2 ψ2) := by
  unfold outcome pairs
  rw [states_append, List.filter_flatMap, List.map_flatMap, List.flatMap_map]
  have hlen : ∀ s ∈ states d1, s.length = d1.length := fun s hs => (mem_states.1 hs).1
  have hval : ∀ s1 ∈ states d1, ∀ s2, tensor d1.length ψ1 ψ2 (s1 ++ s2) = ψ1 s1 * ψ2 s2 := by
    intro s1 h1 s2
    unfold tensor
    rw [← hlen s1 h1, List.take_left, List.drop_left]
  generalize hl : states d1 = l at hlen hval
  clear hl hlen
  induction l with
  | nil => rfl
  | cons s1 l ih =>
    rw [List.flatMap_cons, ih (fun s hs => hval s (by simp [hs]))]
    have h1 := hval s1 (by simp)
    by_cases hz : ψ1 s1 = 0
    · rw [List.filter_cons_of_neg (by simp [hz])]
      rw [List.filter_map, List.filter_eq_nil_iff.2]
      · rfl
      · intro s2 _
        simp [h1, hz]
    · rw [List.filter_cons_of_pos (by simp [hz]), List.flatMap_cons]
      congr 1
      rw [List.filter_map, List.map_map, List.map_map]
      have : (states d2).filter ((fun s => decide (tensor d1.length ψ1 ψ2 s ≠ 0)) ∘ fun s2 => s1 ++ s2)
          = (states d2).filter fun s => ψ2 s ≠ 0 := by
        apply List.filter_congr
        intro s2 _
        simp [h1, hz]
      rw [this]
      apply List.map_congr_left
      intro s2 _
      simp only [Function.comp_apply, h1]

omit [CommRing R] [StarRing R] [DecidableEq R] [UnitaryCheck R] in
theorem fits_parts {d1 d2 s : List Nat} (h : Fits (d1 ++ d2) s) :
    Fits d1 (s.take d1.length) ∧ Fits d2 (s.drop d1.length) :=
  h.split

theorem fold_tensor (N : Numerics R) {d1 d2 : List Nat} (ks : List (Call R ⊕ Call R))
    (h1 : ∀ k ∈ ks.filterMap Sum.getLeft?, k.Valid d1) (h2 : ∀ k ∈ ks.filterMap Sum.getRight?, k.Valid d2)
    (Ψ ψ1 ψ2 : State R) (h : EqOn (d1 ++ d2) Ψ (tensor d1.length ψ1 ψ2)) :
    EqOn (d1 ++ d2)
      ((ks.map (Sum.elim id (Call.shift d1.length))).foldl (fun ψ k => meaning N (d1 ++ d2) k ψ) Ψ)
      (tensor d1.length ((ks.filterMap Sum.getLeft?).foldl (fun ψ k => meaning N d1 k ψ) ψ1)
        ((ks.filterMap Sum.getRight?).foldl (fun ψ k => meaning N d2 k ψ) ψ2)) := by
  induction ks generalizing Ψ ψ1 ψ2 with
  | nil => exact h
  | cons k ks ih =>
    cases k with
    | inl k =>
      simp only [List.filterMap_cons, Sum.getLeft?_inl, Sum.getRight?_inl] at h1 h2 ⊢
      apply ih (fun k hk => h1 k (by simp [hk])) h2
      have hv := h1 k (by simp)
      intro s hs
      change meaning N (d1 ++ d2) k Ψ s = tensor d1.length (meaning N d1 k ψ1) ψ2 s
      rw [((meaning_local N (valid_left d2 hv)).congr h) s hs]
      obtain ⟨f1, f2⟩ := fits_parts hs
      conv_lhs => rw [← List.take_append_drop d1.length s]
      rw [meaning_left N f1 f2 hv]
      have e : EqOn d1 (fun u => tensor d1.length ψ1 ψ2 (u ++ s.drop d1.length))
          (fun u => ψ2 (s.drop d1.length) * ψ1 u) := by
        intro u hu
        simp only [tensor]
        rw [← hu.1, List.take_left, List.drop_left, mul_comm]
      rw [(meaning_local N hv).congr e _ f1, meaning_scale N f1 hv, mul_comm]
      rfl
    | inr k =>
      simp only [List.filterMap_cons, Sum.getLeft?_inr, Sum.getRight?_inr] at h1 h2 ⊢
      apply ih h1 (fun k hk => h2 k (by simp [hk]))
      have hv := h2 k (by simp)
      intro s hs
      change meaning N (d1 ++ d2) (k.shift d1.length) Ψ s = tensor d1.length ψ1 (meaning N d2 k ψ2) s
      rw [((meaning_local N (valid_right d1 hv)).congr h) s hs]
      obtain ⟨f1, f2⟩ := fits_parts hs
      conv_lhs => rw [← List.take_append_drop d1.length s]
      rw [meaning_right N f1 f2 hv]
      have e : EqOn d2 (fun u => tensor d1.length ψ1 ψ2 (s.take d1.length ++ u))
          (fun u => ψ1 (s.take d1.length) * ψ2 u) := by
        intro u hu
        simp only [tensor]
        have := f1.1
        rw [List.take_left' this, List.drop_left' this]
      rw [(meaning_local N hv).congr e _ f2, meaning_scale N f2 hv]
      rfl

omit [CommRing R] [StarRing R] [DecidableEq R] [UnitaryCheck R] in
theorem startLevels_parts {d1 d2 : List Nat} {init1 init2 : List Int} (h : init1.length ≤ d1.length) :
    startLevels (d1 ++ d2) (padTo d1.length init1 ++ init2) = startLevels d1 init1 ++ startLevels d2 init2 := by
  have hp : (padTo d1.length init1).length = d1.length := by simp [padTo]; omega
  unfold startLevels
  rw [List.length_append, List.range_add, List.map_append, List.map_map]
  congr 1
  · apply List.map_congr_left
    intro i hi
    have hi : i < d1.length := by simpa using hi
    rw [getD_left hi, List.getD_eq_getElem?_getD, List.getElem?_append_left (by omega)]
    congr 2
    unfold padTo
    by_cases h3 : i < init1.length
    · rw [List.getElem?_append_left h3, List.getD_eq_getElem?_getD]
    · rw [List.getElem?_append_right (by omega), List.getElem?_replicate, if_pos (by omega),
        List.getD_eq_getElem?_getD, List.getElem?_eq_none (by omega)]
      rfl
  · apply List.map_congr_left
    intro i _
    simp only [Function.comp_apply]
    rw [Nat.add_comm d1.length i, getD_right, List.getD_eq_getElem?_getD,
      List.getElem?_append_right (by omega), hp, Nat.add_sub_cancel, ← List.getD_eq_getElem?_getD]

omit [CommRing R] [StarRing R] [DecidableEq R] [UnitaryCheck R] in
theorem validStart_parts {d1 d2 : List Nat} {init1 init2 : List Int}
    (h1 : ValidStart (d1.map Int.ofNat) init1) (h2 : ValidStart (d2.map Int.ofNat) init2) :
    ValidStart ((d1 ++ d2).map Int.ofNat) (padTo d1.length init1 ++ init2) := by
  have l1 : init1.length ≤ d1.length := by simpa using h1.2.1
  have l2 : init2.length ≤ d2.length := by simpa using h2.2.1
  have hp : (padTo d1.length init1).length = d1.length := by simp [padTo]; omega
  refine ⟨?_, by simp [hp]; omega, ?_⟩
  · intro d hd
    rw [List.map_append] at hd
    rcases List.mem_append.1 hd with hd | hd
    · exact h1.1 d hd
    · exact h2.1 d hd
  · intro i hi hd
    simp only [List.map_append, List.getElem_append, hp, List.length_map]
    split
    · next h =>
      unfold padTo
      rw [List.getElem_append]
      split
      · next h' => exact h1.2.2 i h' (by simpa using h)
      · have := h1.1 ((d1.map Int.ofNat)[i]'(by simpa using h)) (List.getElem_mem _)
        rw [List.getElem_replicate]
        omega
    · next h =>
      simp only [List.length_append, hp] at hi
      exact h2.2.2 (i - d1.length) (by omega) (by simp; omega)

omit [StarRing R] [DecidableEq R] [UnitaryCheck R] in
theorem basis_parts {d1 d2 : List Nat} {init1 init2 : List Int} (h1 : ValidStart (d1.map Int.ofNat) init1) :
    EqOn (d1 ++ d2) (basis (startLevels (d1 ++ d2) (padTo d1.length init1 ++ init2)) : State R)
      (tensor d1.length (basis (startLevels d1 init1)) (basis (startLevels d2 init2))) := by
  intro s hs
  rw [startLevels_parts (by simpa using h1.2.1)]
  have hl : (startLevels d1 init1).length = d1.length := (startLevels_fits h1).1
  unfold tensor basis
  have : s = startLevels d1 init1 ++ startLevels d2 init2 ↔
      s.take d1.length = startLevels d1 init1 ∧ s.drop d1.length = startLevels d2 init2 := by
    constructor
    · rintro rfl
      exact ⟨List.take_left' hl, List.drop_left' hl⟩
    · rintro ⟨e1, e2⟩
      rw [← List.take_append_drop d1.length s, e1, e2]
  simp only [this]
  by_cases e1 : s.take d1.length = startLevels d1 init1 <;>
    by_cases e2 : s.drop d1.length = startLevels d2 init2 <;> simp [e1, e2]

/-- **C51.** Gates on the first registers and gates on the remaining ones (with register numbers moved
up), in any order: the outcomes are the pairs of outcomes of the two circuits run separately, and the
amplitudes are the products. -/
theorem C51_independent_parts [Nontrivial R] [NoZeroDivisors R] {N : Numerics R} (hN : N.Sized)
    {B : Backend R} (hB : B.Lawful) {d1 d2 : List Nat} (hne1 : d1 ≠ []) (hne2 : d2 ≠ [])
    {init1 init2 : List Int} (h1 : ValidStart (d1.map Int.ofNat) init1)
    (h2 : ValidStart (d2.map Int.ofNat) init2) (ks : List (Call R ⊕ Call R))
    (hk1 : ∀ k ∈ ks.filterMap Sum.getLeft?, k.Valid d1) (hk2 : ∀ k ∈ ks.filterMap Sum.getRight?, k.Valid d2) :
    ∃ es1 es2 : List (List Nat × R), (∀ e ∈ es1, Fits d1 e.1) ∧ (∀ e ∈ es2, Fits d2 e.1) ∧
      Lists N B d1 init1 (ks.filterMap Sum.getLeft?) es1 ∧ Lists N B d2 init2 (ks.filterMap Sum.getRight?) es2 ∧
      Lists N B (d1 ++ d2) (padTo d1.length init1 ++ init2) (ks.map (Sum.elim id (Call.shift d1.length)))
        (pairs es1 es2) := by
  refine ⟨_, _, fun e he => (outcome_fits he).1, fun e he => (outcome_fits he).1,
    lists_valid hN hB hne1 h1 hk1, lists_valid hN hB hne2 h2 hk2, ?_⟩
  rw [← outcome_tensor, ← outcome_congr (fold_tensor N ks hk1 hk2 _ _ _ (basis_parts h1))]
  refine lists_valid hN hB (by simp [hne1]) (validStart_parts h1 h2) ?_
  · intro k hk
    obtain ⟨x, hx, rfl⟩ := List.mem_map.1 hk
    cases x with
    | inl k => exact valid_left d2 (hk1 k (List.mem_filterMap.2 ⟨_, hx, rfl⟩))
    | inr k => exact valid_right d1 (hk2 k (List.mem_filterMap.2 ⟨_, hx, rfl⟩))

/-- **C51** for registers that are not used at all: adding them after the others appends their initial
levels to every outcome and changes nothing else. -/
theorem C51_unused_registers [Nontrivial R] [NoZeroDivisors R] {N : Numerics R} (hN : N.Sized)
    {B : Backend R} (hB : B.Lawful) {d1 d2 : List Nat} (hne1 : d1 ≠ []) (hne2 : d2 ≠ [])
    {init1 init2 : List Int} (h1 : ValidStart (d1.map Int.ofNat) init1)
    (h2 : ValidStart (d2.map Int.ofNat) init2) {ks : List (Call R)} (hks : ∀ k ∈ ks, k.Valid d1) :
    ∃ es : List (List Nat × R), (∀ e ∈ es, Fits d1 e.1) ∧
      Lists N B d1 init1 ks es ∧
      Lists N B (d1 ++ d2) (padTo d1.length init1 ++ init2) ks (es.map fun e => (e.1 ++ startLevels d2 init2, e.2)) := by
  have e1 : (ks.map (Sum.inl : Call R → Call R ⊕ Call R)).filterMap Sum.getLeft? = ks := by
    rw [List.filterMap_map]; simp [Function.comp_def]
  have e2 : (ks.map (Sum.inl : Call R → Call R ⊕ Call R)).filterMap Sum.getRight? = [] := by
    rw [List.filterMap_map]; simp [Function.comp_def]
  have e3 : (ks.map (Sum.inl : Call R → Call R ⊕ Call R)).map (Sum.elim id (Call.shift d1.length)) = ks := by
    rw [List.map_map]; simp [Function.comp_def]
  have v1 := lists_valid hN hB hne1 h1 hks
  refine ⟨_, fun e he => (outcome_fits he).1, v1, ?_⟩
  have hf := startLevels_fits h2
  have := fold_tensor N (d1 := d1) (d2 := d2) (ks.map Sum.inl) (by rw [e1]; exact hks) (by simp [e2])
    (tensor d1.length (basis (startLevels d1 init1)) (basis (startLevels d2 init2))) _ _ (fun _ _ => rfl)
  rw [e1, e2, e3] at this
  have key := lists_valid hN hB (by simp [hne1]) (validStart_parts h1 h2) (ks := ks)
    (fun k hk => valid_left d2 (hks k hk))
  rw [outcome_congr (fold_eqOn ks (fun k hk => valid_left d2 (hks k hk)) (basis_parts h1)), outcome_congr this,
    outcome_tensor, List.foldl_nil, outcome_basis hf] at key
  convert key using 1
  simp [pairs, List.flatMap_singleton, List.map_eq_flatMap]

example {B : Backend ℤ} (hB : B.Lawful) : ∃ es1 es2 : List (List Nat × ℤ),
    Lists sampleN B [2, 3] [1] [.h 0 none, .cx 0 1 1] es1 ∧
    Lists sampleN B [4, 2, 2] [3] [.h 2 none, .toffoli [0, 2] 1 1] es2 ∧
    Lists sampleN B [2, 3, 4, 2, 2] [1, 0, 3] [.h 4 none, .h 0 none, .toffoli [2, 4] 3 1, .cx 0 1 1] (pairs es1 es2) := by
  obtain ⟨es1, es2, _, _, h⟩ := C51_independent_parts sampleN_sized hB (d1 := [2, 3]) (d2 := [4, 2, 2])
    (by simp) (by simp) (init1 := [1]) (init2 := [3]) (validStart_of rfl) (validStart_of rfl)
    [.inr (.h 2 none), .inl (.h 0 none), .inr (.toffoli [0, 2] 1 1), .inl (.cx 0 1 1)]
    (by simp [Call.Valid, InRange, DimOK]) (by simp [Call.Valid, InRange, DimOK, spanOf])
  exact ⟨es1, es2, h⟩

end QuDiet
