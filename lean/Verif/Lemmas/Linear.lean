import Verif.Amplitude
import Verif.Lemmas.Parts
import Verif.Props.Numeric

/-! # Amplitudes as sums over paths -/

namespace QuDiet
open Spec

section
variable {R : Type} [CommRing R] [StarRing R] [DecidableEq R] [UnitaryCheck R]

omit [CommRing R] [StarRing R] [DecidableEq R] [UnitaryCheck R] in
theorem startLevels_asInit {dims s : List Nat} (h : Fits dims s) : startLevels dims (asInit s) = s := by
  apply List.ext_getElem
  · simp [startLevels, h.1]
  · intro i h1 h2
    have hd : i < dims.length := by rw [← h.1]; exact h2
    have := h.2 i h2 hd
    simp only [startLevels, asInit, List.getElem_map, List.getElem_range]
    rw [List.getD_eq_getElem?_getD, List.getElem?_map, List.getElem?_eq_getElem h2, List.getD_eq_getElem?_getD,
      List.getElem?_eq_getElem hd]
    simp only [Option.map_some, Option.getD_some]
    rw [Int.emod_eq_of_lt (by simp) (by simpa using this)]
    simp

omit [CommRing R] [StarRing R] [DecidableEq R] [UnitaryCheck R] in
theorem validStart_asInit {dims s : List Nat} (h2 : ∀ d ∈ dims, 2 ≤ d) (h : Fits dims s) :
    ValidStart (dims.map Int.ofNat) (asInit s) := by
  refine ⟨?_, by simp [asInit, h.1], ?_⟩
  · intro d hd
    obtain ⟨e, he, rfl⟩ := List.mem_map.1 hd
    have := h2 e he
    simp
    omega
  · intro i hi hi'
    simp only [asInit, List.length_map] at hi hi'
    have := h.2 i hi hi'
    simp only [asInit, List.getElem_map]
    simp
    omega

omit [StarRing R] [UnitaryCheck R] in
theorem lookup_outcome (l : List (List Nat)) (ψ : State R) (s : List Nat) :
    (((l.filter fun s => ψ s ≠ 0).map fun s => (Key.tup s, ψ s)).lookup (.tup s)).getD 0 =
      if s ∈ l then ψ s else 0 := by
  induction l with
  | nil => simp
  | cons t l ih =>
    by_cases ht : ψ t = 0
    · rw [List.filter_cons_of_neg (by simp [ht]), ih]
      by_cases hst : s = t
      · subst hst
        simp [ht]
      · simp [hst]
    · rw [List.filter_cons_of_pos (by simp [ht]), List.map_cons, List.lookup_cons]
      by_cases hst : s = t
      · subst hst
        simp
      · have : (Key.tup s == Key.tup t) = false := by simp [hst]
        rw [this, ih]
        simp [hst]

variable [Nontrivial R]

/-- What `amplitude` reads off is the state of C01. -/
theorem amplitude_eq {N : Numerics R} (hN : N.Sized) {B : Backend R} (hB : B.Lawful)
    {dims : List Nat} (hne : dims ≠ []) {init : List Int} (h : ValidStart (dims.map Int.ofNat) init)
    {ks : List (Call R)} (hks : ∀ k ∈ ks, k.Valid dims) {s : List Nat} (hs : Fits dims s) :
    amplitude N B dims init ks s = stateAfter N dims init ks s := by
  unfold amplitude
  rw [script_valid hN hB hne h (out := some ⟨dims, .state, .amplitude⟩) (by simp) hks []]
  simp only [listing, outcome, List.map_map, format, Option.getD_some]
  have := lookup_outcome (states dims) (stateAfter N dims init ks) s
  rw [if_pos (mem_states.2 hs)] at this
  exact this

theorem amplitude_unfit {N : Numerics R} (hN : N.Sized) {B : Backend R} (hB : B.Lawful)
    {dims : List Nat} (hne : dims ≠ []) {init : List Int} (h : ValidStart (dims.map Int.ofNat) init)
    {ks : List (Call R)} (hks : ∀ k ∈ ks, k.Valid dims) {s : List Nat} (hs : ¬ Fits dims s) :
    amplitude N B dims init ks s = 0 := by
  unfold amplitude
  rw [script_valid hN hB hne h (out := some ⟨dims, .state, .amplitude⟩) (by simp) hks []]
  simp only [listing, outcome, List.map_map, format, Option.getD_some]
  have := lookup_outcome (states dims) (stateAfter N dims init ks) s
  rw [if_neg (fun hm => hs (mem_states.1 hm))] at this
  exact this

/-! ### Linearity -/

omit [Nontrivial R]

/-- The calls applied to any state. -/
def applyAll (N : Numerics R) (dims : List Nat) (ks : List (Call R)) (ψ : State R) : State R :=
  ks.foldl (fun ψ k => meaning N dims k ψ) ψ

omit [StarRing R] [DecidableEq R] [UnitaryCheck R] in
theorem stateAfter_eq (N : Numerics R) (dims : List Nat) (init : List Int) (ks : List (Call R)) :
    stateAfter N dims init ks = applyAll N dims ks (basis (startLevels dims init)) := rfl

omit [StarRing R] [DecidableEq R] [UnitaryCheck R] in
theorem applyAll_append (N : Numerics R) (dims : List Nat) (as bs : List (Call R)) (ψ : State R) :
    applyAll N dims (as ++ bs) ψ = applyAll N dims bs (applyAll N dims as ψ) := List.foldl_append ..

theorem applyAll_congr (N : Numerics R) {dims : List Nat} {ks : List (Call R)} (hks : ∀ k ∈ ks, k.Valid dims)
    {ψ φ : State R} (h : EqOn dims ψ φ) : EqOn dims (applyAll N dims ks ψ) (applyAll N dims ks φ) := by
  induction ks generalizing ψ φ with
  | nil => exact h
  | cons k ks ih =>
    exact ih (fun k hk => hks k (by simp [hk])) ((meaning_local N (hks k (by simp))).congr h)

omit [StarRing R] [DecidableEq R] [UnitaryCheck R] in
theorem eq_sum_basis {dims s : List Nat} (hs : Fits dims s) (ψ : State R) :
    ψ s = ((states dims).map fun t => ψ t * basis t s).sum := by
  have : ((states dims).map fun t => ψ t * basis t s) = (states dims).map fun t => if s = t then ψ t else 0 := by
    apply List.map_congr_left
    intro t _
    unfold basis
    split <;> simp
  rw [this, sum_ite_eq _ (nodup_states dims) s (mem_states.2 hs)]

/-- A valid call is linear. -/
theorem meaning_sum (N : Numerics R) {dims : List Nat} {k : Call R} (hk : k.Valid dims) {α : Type} (l : List α)
    (c : α → R) (φ : α → State R) :
    EqOn dims (meaning N dims k fun s => (l.map fun a => c a * φ a s).sum)
      fun s => (l.map fun a => c a * meaning N dims k (φ a) s).sum := by
  obtain ⟨ι, m, d, g, h1, h2, -⟩ := meaning_local N hk
  intro s hs
  rw [h1 _ s hs]
  have : (l.map fun a => c a * meaning N dims k (φ a) s) =
      l.map fun a => (m.map fun i => d i s * (c a * φ a (g i s))).sum := by
    apply List.map_congr_left
    intro a _
    rw [h1 _ s hs, ← List.sum_map_mul_left]
    apply map_congr_sum
    intro i _
    ring
  simp only
  rw [this, sum_comm]
  apply map_congr_sum
  intro i _
  rw [List.sum_map_mul_left]

theorem applyAll_sum (N : Numerics R) {dims : List Nat} {ks : List (Call R)} (hks : ∀ k ∈ ks, k.Valid dims)
    {α : Type} (l : List α) (c : α → R) (φ : α → State R) :
    EqOn dims (applyAll N dims ks fun s => (l.map fun a => c a * φ a s).sum)
      fun s => (l.map fun a => c a * applyAll N dims ks (φ a) s).sum := by
  induction ks generalizing φ with
  | nil => exact fun s _ => rfl
  | cons k ks ih =>
    intro s hs
    have hks' : ∀ k ∈ ks, k.Valid dims := fun k hk => hks k (by simp [hk])
    change applyAll N dims ks (meaning N dims k _) s = _
    rw [applyAll_congr N hks' (meaning_sum N (hks k (by simp)) l c φ) s hs, ih hks' (fun a => meaning N dims k (φ a)) s hs]
    rfl

/-- The state after the calls, from any state, as a sum over the basis states. -/
theorem applyAll_expand (N : Numerics R) {dims : List Nat} {ks : List (Call R)} (hks : ∀ k ∈ ks, k.Valid dims)
    (ψ : State R) {s : List Nat} (hs : Fits dims s) :
    applyAll N dims ks ψ s = ((states dims).map fun t => ψ t * applyAll N dims ks (basis t) s).sum := by
  exact (applyAll_congr N hks (fun s hs => eq_sum_basis hs ψ) s hs).trans
    (applyAll_sum N hks (states dims) ψ basis s hs)

end

end QuDiet
