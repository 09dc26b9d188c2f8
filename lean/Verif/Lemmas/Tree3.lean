import Verif.Lemmas.Tree2
import Verif.Props.Gates

/-! # Lemmas: running the decomposition with QuDiet -/

namespace QuDiet.Tree
open Spec
open scoped Classical

/-! ### What `simulate` leaves behind -/

theorem simulate_eq {c : Nat} (hc : 2 ≤ c) : ∃ s, Inv c (c / 2) s ∧ simulate (c + 1) = .ok
    { tern := s.tern + 1
      quat := s.quat
      qubits := s.qubits
      qutrits := s.qutrits
      ququads := s.ququads
      finalLevels := s.levels ++ [[(some ⟨c + 1, 1, 1, 2, .dollar, .ternary⟩, none)]] ++ reflection s.levels } := by
  obtain ⟨s, h1, _, h2⟩ := loop_ends hc (fuel := c + 1) (j := 0) (by omega) (by omega) (inv_start hc)
  refine ⟨s, h2, ?_⟩
  unfold simulate
  rw [if_neg (by omega)]
  simp only [Nat.add_sub_cancel, h1]

/-- Control, target and increment of a gate. -/
def triple (g : Gate) : Nat × Nat × Int := (g.control, g.target, if g.sign = .minus then -1 else 1)

/-- The gates of a pair, in order. -/
def pairGates (d : Option Gate × Option Gate) : List Gate := d.1.toList ++ d.2.toList

/-- A pair of the reflection. -/
def flipPair (d : Option Gate × Option Gate) : Option Gate × Option Gate := (d.2.map Gate.flip, d.1.map Gate.flip)

theorem forward_eq {c k : Nat} (hk : 1 ≤ k) : (pairGates (nodeGates c k)).map triple = forward c k := by
  unfold nodeGates forward
  by_cases h1 : c / 4 < k
  · by_cases h2 : c < 2 * k + 1 <;> simp [h1, h2, makeGates, pairGates, triple]
  · rw [if_neg h1, if_neg (by omega)]
    simp [makeGates, pairGates, triple]

theorem backward_eq {c k : Nat} (hk : 1 ≤ k) : (pairGates (flipPair (nodeGates c k))).map triple = backward c k := by
  unfold nodeGates backward
  by_cases h1 : c / 4 < k
  · by_cases h2 : c < 2 * k + 1 <;> simp [h1, h2, makeGates, pairGates, triple, flipPair, Gate.flip]
  · rw [if_neg h1, if_neg (by omega)]
    simp [makeGates, pairGates, triple, flipPair, Gate.flip]

theorem gates_append (a b : List Level) : gates (a ++ b) = gates a ++ gates b := by
  simp [gates]

theorem gates_levels {c : Nat} (is : List Nat) (F : Option Gate × Option Gate → Option Gate × Option Gate) :
    gates (is.map fun i => (onLevel c i).map fun k => F (nodeGates c k)) =
      is.flatMap fun i => (onLevel c i).flatMap fun k => pairGates (F (nodeGates c k)) := by
  induction is with
  | nil => rfl
  | cons i is ih =>
    rw [List.map_cons, List.flatMap_cons, ← ih]
    simp only [gates, List.flatten_cons, List.flatMap_append, List.flatMap_map, pairGates]

theorem reflection_eq (levels : List Level) : reflection levels = levels.reverse.map fun l => l.map flipPair := rfl

theorem inv_levels {c : Nat} {s : Sim} (hs : Inv c (c / 2) s) :
    s.levels = (List.range (Nat.log2 c)).map fun i => (onLevel c i).map (nodeGates c) := hs.levels

theorem final_gates {c : Nat} {s : Sim} (hs : Inv c (c / 2) s) (g : Gate) :
    gates (s.levels ++ [[(some g, none)]] ++ reflection s.levels) =
      ((List.range (Nat.log2 c)).flatMap fun i => (onLevel c i).flatMap fun k => pairGates (nodeGates c k)) ++
      [g] ++ ((List.range (Nat.log2 c)).reverse.flatMap fun i => (onLevel c i).flatMap fun k =>
        pairGates (flipPair (nodeGates c k))) := by
  rw [gates_append, gates_append, reflection_eq, inv_levels hs]
  have h1 := gates_levels (c := c) (List.range (Nat.log2 c)) id
  have h2 := gates_levels (c := c) (List.range (Nat.log2 c)).reverse flipPair
  simp only [id] at h1
  rw [← h2]
  rw [show gates ((List.range (Nat.log2 c)).map fun i => (onLevel c i).map (nodeGates c)) = _ from h1]
  congr 2
  rw [← List.map_reverse, List.map_map]
  congr 1
  funext i
  simp

theorem final_triples {c : Nat} {s : Sim} (hs : Inv c (c / 2) s) :
    (gates (s.levels ++ [[(some ⟨c + 1, 1, 1, 2, .dollar, .ternary⟩, none)]] ++ reflection s.levels)).map triple =
      ((List.range (Nat.log2 c)).flatMap fun i => (onLevel c i).flatMap (forward c)) ++
      [(1, c + 1, 1)] ++
      ((List.range (Nat.log2 c)).reverse.flatMap fun i => (onLevel c i).flatMap (backward c)) := by
  rw [final_gates hs, List.map_append, List.map_append, List.map_flatMap, List.map_flatMap]
  have h1 : ∀ i, List.map triple ((onLevel c i).flatMap fun k => pairGates (nodeGates c k)) =
      (onLevel c i).flatMap (forward c) := by
    intro i
    rw [List.map_flatMap]
    apply List.flatMap_congr
    intro k hk
    exact forward_eq (mem_onLevel.1 hk).1
  have h2 : ∀ i, List.map triple ((onLevel c i).flatMap fun k => pairGates (flipPair (nodeGates c k))) =
      (onLevel c i).flatMap (backward c) := by
    intro i
    rw [List.map_flatMap]
    apply List.flatMap_congr
    intro k hk
    exact backward_eq (mem_onLevel.1 hk).1
  simp only [h1, h2]
  rfl

/-! ### Registers -/

theorem inv_qutrits {c : Nat} {s : Sim} (hs : Inv c (c / 2) s) (hc : 2 ≤ c) (x : Nat) :
    x ∈ s.qutrits ↔ x = 1 ∨ (2 ≤ x ∧ x % 2 = 0 ∧ x ≤ c / 2) ∨ (3 ≤ x ∧ x % 2 = 1 ∧ c / 2 < x ∧ x ≤ c) := by
  rw [hs.qutrits]
  constructor
  · rintro (h | ⟨k, h1, h2, h3⟩) <;> omega
  · rintro (h | h | h)
    · exact .inl h
    · exact .inr ⟨x / 2, by omega, by omega, by omega⟩
    · exact .inr ⟨x / 2, by omega, by omega, by omega⟩

theorem inv_ququads {c : Nat} {s : Sim} (hs : Inv c (c / 2) s) (x : Nat) :
    x ∈ s.ququads ↔ 3 ≤ x ∧ x % 2 = 1 ∧ x ≤ c / 2 := by
  rw [hs.ququads]
  constructor
  · rintro ⟨k, h1, h2, h3⟩
    omega
  · rintro h
    exact ⟨x / 2, by omega, by omega, by omega, by omega, by omega⟩

theorem inv_qubits {c : Nat} {s : Sim} (hs : Inv c (c / 2) s) (x : Nat) :
    x ∈ s.qubits ↔ x = c + 1 ∨ (2 ≤ x ∧ x % 2 = 0 ∧ c / 2 < x ∧ x ≤ c) := by
  rw [hs.qubits]
  constructor
  · rintro (h | ⟨k, h1, h2, h3⟩) <;> omega
  · rintro (h | h)
    · exact .inl h
    · exact .inr ⟨x / 2, by omega, by omega, by omega⟩

/-- Line `pos k` is among the mapped nodes iff `k` is among the nodes. -/
theorem mem_image_position {n k : Nat} (hk : 1 ≤ k) (hk' : k ≤ n) {A : Finset Nat}
    (hA : ∀ x ∈ A, 1 ≤ x ∧ x ≤ n) : some (pos n k) ∈ A.image (position n) ↔ k ∈ A := by
  rw [Finset.mem_image]
  constructor
  · rintro ⟨x, hx, he⟩
    obtain ⟨h1, h2⟩ := hA x hx
    rw [position_eq h1 h2, Option.some.injEq] at he
    rw [← pos_inj h1 h2 hk hk' he]
    exact hx
  · intro h
    exact ⟨k, h, position_eq hk hk'⟩

theorem registers_getD {c : Nat} (hc : 2 ≤ c) {s : Sim} (hs : Inv c (c / 2) s) {r : Result}
    (h3 : r.qutrits = s.qutrits) (h4 : r.ququads = s.ququads) {k : Nat} (hk : 1 ≤ k) (hk' : k ≤ c + 1) :
    (registers (c + 1) r).getD (pos (c + 1) k) 0 = dim c k := by
  have hp := pos_lt hk hk'
  unfold registers
  rw [List.getD_eq_getElem?_getD, List.getElem?_map, List.getElem?_range hp]
  simp only [Option.map_some, Option.getD_some]
  have hA : ∀ x ∈ r.ququads, 1 ≤ x ∧ x ≤ c + 1 := by
    intro x hx
    rw [h4, inv_ququads hs] at hx
    omega
  have hB : ∀ x ∈ r.qutrits, 1 ≤ x ∧ x ≤ c + 1 := by
    intro x hx
    rw [h3, inv_qutrits hs hc] at hx
    omega
  simp only [mem_image_position hk hk' hA, mem_image_position hk hk' hB]
  simp only [h3, h4, inv_ququads hs, inv_qutrits hs hc]
  unfold dim
  split_ifs <;> omega

theorem registers_ge (n : Nat) (r : Result) : ∀ d ∈ registers n r, 2 ≤ d := by
  intro d hd
  obtain ⟨i, _, rfl⟩ := List.mem_map.1 hd
  split_ifs <;> omega

theorem registers_length (n : Nat) (r : Result) : (registers n r).length = n := by simp [registers]

/-! ### From nodes to registers -/

/-- The level list `s` shows the node levels `f`. -/
def Rep (c : Nat) (f : Nat → Nat) (s : List Nat) : Prop :=
  s.length = c + 1 ∧ ∀ k, 1 ≤ k → k ≤ c + 1 → s.getD (pos (c + 1) k) 0 = f k

theorem rep_step {c : Nat} {dims : List Nat}
    (hd : ∀ k, 1 ≤ k → k ≤ c + 1 → dims.getD (pos (c + 1) k) 0 = dim c k) {f : Nat → Nat} {s : List Nat}
    (hs : Rep c f s) {g : Nat × Nat × Int} (hg : InTree c g) :
    Rep c (act c g.1 g.2.1 g.2.2 f)
      (controlled dims [pos (c + 1) g.1] (pos (c + 1) g.2.1) g.2.2 s) := by
  obtain ⟨a, t, p⟩ := g
  obtain ⟨h1, h2, h3, h4, _⟩ := hg
  simp only at h1 h2 h3 h4 ⊢
  obtain ⟨hl, hv⟩ := hs
  have hp := pos_lt h3 h4
  have htop : (∀ x ∈ [pos (c + 1) a], atTop dims x s) ↔ f a + 1 = dim c a := by
    simp only [List.mem_singleton, forall_eq, atTop, hd a h1 h2, hv a h1 h2]
  unfold controlled
  by_cases hf : f a + 1 = dim c a
  · rw [if_pos (htop.2 hf)]
    refine ⟨by simp [bump, hl], ?_⟩
    intro k hk hk'
    unfold bump act
    rw [List.getD_eq_getElem?_getD, List.getElem?_set]
    by_cases e : k = t
    · subst e
      rw [if_pos rfl, if_pos (by omega), if_pos ⟨rfl, hf⟩, hv k hk hk', hd k hk hk']
      rfl
    · rw [if_neg (fun h => e (pos_inj h3 h4 hk hk' h).symm), if_neg (fun h => e h.1), ← List.getD_eq_getElem?_getD,
        hv k hk hk']
  · rw [if_neg (fun h => hf (htop.1 h))]
    refine ⟨hl, ?_⟩
    intro k hk hk'
    unfold act
    rw [if_neg (fun h => hf h.2), hv k hk hk']

theorem rep_fold {c : Nat} {dims : List Nat}
    (hd : ∀ k, 1 ≤ k → k ≤ c + 1 → dims.getD (pos (c + 1) k) 0 = dim c k)
    (gs : List (Nat × Nat × Int)) (hg : ∀ g ∈ gs, InTree c g) {f : Nat → Nat} {s : List Nat} (hs : Rep c f s) :
    Rep c (acts c gs f)
      (gs.foldl (fun s g => controlled dims [pos (c + 1) g.1] (pos (c + 1) g.2.1) g.2.2 s) s) := by
  induction gs generalizing f s with
  | nil => exact hs
  | cons g gs ih => exact ih (fun g hg' => hg g (by simp [hg'])) (rep_step hd hs (hg g (by simp)))

theorem rep_agree {c : Nat} {f g : Nat → Nat} {s : List Nat} (h : Agree c f g) (hs : Rep c f s) : Rep c g s :=
  ⟨hs.1, fun k hk hk' => by rw [hs.2 k hk hk', h k hk hk']⟩

/-- A level list is determined by the levels of the nodes. -/
theorem rep_unique {c : Nat} {f : Nat → Nat} {s s' : List Nat} (h : Rep c f s) (h' : Rep c f s') : s = s' := by
  apply List.ext_getElem (by rw [h.1, h'.1])
  intro i h1 h2
  have hi : i < c + 1 := by rw [← h.1]; exact h1
  obtain ⟨k, hk1, hk2, hk3⟩ : ∃ k, 1 ≤ k ∧ k ≤ c + 1 ∧ pos (c + 1) k = i := by
    by_cases e : i = c
    · exact ⟨c + 1, by omega, le_refl _, by rw [pos_self]; omega⟩
    · obtain ⟨k, a1, a2, a3⟩ := pos_surj (n := c + 1) (i := i) (by omega)
      exact ⟨k, a1, by omega, a3⟩
  have e1 := h.2 k hk1 hk2
  have e2 := h'.2 k hk1 hk2
  rw [hk3] at e1 e2
  simp only [List.getD_eq_getElem?_getD, List.getElem?_eq_getElem h1, List.getElem?_eq_getElem h2,
    Option.getD_some] at e1 e2
  rw [e1, e2]

theorem network_inTree {c : Nat} (hc : 2 ≤ c) :
    ∀ g ∈ ((List.range (Nat.log2 c)).flatMap fun i => (onLevel c i).flatMap (forward c)) ++ [(1, c + 1, 1)] ++
      ((List.range (Nat.log2 c)).reverse.flatMap fun i => (onLevel c i).flatMap (backward c)), InTree c g := by
  intro g hg
  rw [List.mem_append, List.mem_append] at hg
  rcases hg with (hg | hg) | hg
  · obtain ⟨l, hl, hg⟩ := List.mem_flatMap.1 hg
    obtain ⟨j, hj, hg⟩ := List.mem_flatMap.1 hg
    obtain ⟨g1, g2, -⟩ := mem_onLevel.1 hj
    exact forward_inTree g1 g2 g hg
  · rw [List.mem_singleton] at hg
    subst hg
    exact ⟨by simp only; omega, by simp only; omega, by simp only; omega, by simp only; omega, by simp only; omega⟩
  · obtain ⟨l, hl, hg⟩ := List.mem_flatMap.1 hg
    obtain ⟨j, hj, hg⟩ := List.mem_flatMap.1 hg
    obtain ⟨g1, g2, -⟩ := mem_onLevel.1 hj
    exact backward_inTree g1 g2 g hg

/-! ### The calls -/

/-- The call for a gate. -/
def callOf {R : Type} (n : Nat) (g : Nat × Nat × Int) : Call R := .cx (pos n g.1) (pos n g.2.1) g.2.2

theorem gateCall_eq {R : Type} {c : Nat} {g : Gate} (h : InTree c (triple g)) :
    gateCall (R := R) (c + 1) g = .ok (callOf (c + 1) (triple g)) := by
  obtain ⟨h1, h2, h3, h4, _⟩ := h
  unfold gateCall
  have e1 : position (c + 1) g.control = some (pos (c + 1) g.control) := position_eq h1 h2
  have e2 : position (c + 1) g.target = some (pos (c + 1) g.target) := position_eq h3 h4
  rw [e1, e2]
  rfl

theorem build_eq {R : Type} [CommRing R] {c : Nat} {dims : List Nat} (hne : dims ≠ []) {init : List Int}
    (h : ValidStart (dims.map Int.ofNat) init) {c0 : Circuit R}
    (h0 : Circuit.new (R := R) (.list (dims.map Int.ofNat)) init none = .ok c0)
    (gs : List Gate) (hg : ∀ g ∈ gs, InTree c (triple g)) (pre : List (Call R)) :
    build (c + 1) gs (c0.calls pre) = .ok (c0.calls (pre ++ gs.map fun g => callOf (c + 1) (triple g))) := by
  induction gs generalizing pre with
  | nil => simp [build]
  | cons g gs ih =>
    rw [build, gateCall_eq (hg g (by simp))]
    obtain ⟨b, hb, _⟩ := C19_cx_never_raises (R := R) (q := .list (dims.map Int.ofNat)) rfl hne h none pre
      (pos (c + 1) (triple g).1) (pos (c + 1) (triple g).2.1) (triple g).2.2
    unfold answer at hb
    rw [h0] at hb
    change ((c0.calls pre).call (callOf (c + 1) (triple g))).2 = .ok b at hb
    have hcall : (c0.calls pre).call (callOf (c + 1) (triple g)) =
        (c0.calls (pre ++ [callOf (c + 1) (triple g)]), .ok b) := by
      rw [← hb]
      simp [Circuit.calls]
    have := ih (fun g hg' => hg g (by simp [hg'])) (pre ++ [callOf (c + 1) (triple g)])
    simp only [hcall]
    rw [this]
    simp

end QuDiet.Tree
