import Verif.Tree
import Mathlib.Tactic.IntervalCases
import Mathlib.Tactic.Linarith

/-! # Lemmas: the tree, its traversal and the loop of `simulate` -/

namespace QuDiet.Tree

/-! ### The in-order listing -/

/-- `k` lies in the subtree of `p`. -/
def Below (k p : Nat) : Prop := ∃ j, k / 2 ^ j = p

theorem Below.refl (k : Nat) : Below k k := ⟨0, by simp⟩

theorem Below.le {k p : Nat} (h : Below k p) : p ≤ k := by
  obtain ⟨j, rfl⟩ := h
  exact Nat.div_le_self _ _

theorem Below.up {k p : Nat} (h : Below k p) : Below k (p / 2) := by
  obtain ⟨j, rfl⟩ := h
  exact ⟨j + 1, by rw [pow_succ, Nat.div_div_eq_div_mul]⟩

theorem below_iff {k p : Nat} : Below k p ↔ k = p ∨ Below k (2 * p) ∨ Below k (2 * p + 1) := by
  constructor
  · rintro ⟨j, hj⟩
    rcases j with _ | j
    · left; simpa using hj
    · right
      rw [pow_succ, ← Nat.div_div_eq_div_mul] at hj
      rcases Nat.even_or_odd' (k / 2 ^ j) with ⟨q, hq | hq⟩
      · left; exact ⟨j, by omega⟩
      · right; exact ⟨j, by omega⟩
  · rintro (rfl | h | h)
    · exact Below.refl _
    · have := h.up; rwa [show 2 * p / 2 = p by omega] at this
    · have := h.up; rwa [show (2 * p + 1) / 2 = p by omega] at this

theorem below_trichotomy {k p q : Nat} (hp : Below k p) (hq : Below k q) (hpq : p ≤ q) : Below q p := by
  obtain ⟨i, hi⟩ := hp
  obtain ⟨j, hj⟩ := hq
  rcases le_total j i with h | h
  · refine ⟨i - j, ?_⟩
    rw [← hj, Nat.div_div_eq_div_mul, ← pow_add, show j + (i - j) = i by omega, hi]
  · have : q = p / 2 ^ (j - i) := by
      rw [← hi, Nat.div_div_eq_div_mul, ← pow_add, show i + (j - i) = j by omega, hj]
    have h2 : p / 2 ^ (j - i) ≤ p := Nat.div_le_self _ _
    have : q = p := by omega
    subst this
    exact Below.refl _

theorem below_one {k : Nat} (hk : 1 ≤ k) : Below k 1 := by
  refine ⟨Nat.log2 k, ?_⟩
  have h1 := Nat.log2_self_le (n := k) (by omega)
  have h2 := Nat.lt_log2_self (n := k)
  apply Nat.div_eq_of_lt_le <;> first | (simpa using h1) | (rw [pow_succ] at h2; omega)

theorem not_below_siblings {k p : Nat} (hp : 1 ≤ p) (h : Below k (2 * p)) : ¬ Below k (2 * p + 1) := by
  intro h'
  have h1 := below_trichotomy h h' (by omega)
  rw [below_iff] at h1
  rcases h1 with h1 | h1 | h1
  · omega
  · have := h1.le; omega
  · have := h1.le; omega

theorem mem_inorder {c p k : Nat} (hp : 1 ≤ p) : k ∈ inorder c p ↔ k ≤ c ∧ Below k p := by
  induction p using (measure fun p => c + 1 - p).wf.induction with
  | _ p ih =>
    rw [inorder]
    split
    · next h =>
      constructor
      · simp
      · rintro ⟨h1, h2⟩
        have := h2.le
        omega
    · next h =>
      have e1 := ih (2 * p) (by simp only [measure, invImage, InvImage, WellFoundedRelation.rel]; show c + 1 - 2 * p < c + 1 - p; omega) (by omega)
      have e2 := ih (2 * p + 1) (by show c + 1 - (2 * p + 1) < c + 1 - p; omega) (by omega)
      simp only [List.mem_append, List.mem_singleton, e1, e2]
      rw [below_iff (p := p)]
      constructor
      · rintro ((h1 | h1) | h1)
        · exact ⟨h1.1, .inr (.inl h1.2)⟩
        · exact ⟨by omega, .inl h1⟩
        · exact ⟨h1.1, .inr (.inr h1.2)⟩
      · rintro ⟨h1, h2 | h2 | h2⟩
        · exact .inl (.inr h2)
        · exact .inl (.inl ⟨h1, h2⟩)
        · exact .inr ⟨h1, h2⟩

theorem nodup_inorder {c p : Nat} (hp : 1 ≤ p) : (inorder c p).Nodup := by
  induction p using (measure fun p => c + 1 - p).wf.induction with
  | _ p ih =>
    rw [inorder]
    split
    · simp
    · next h =>
      have e1 := ih (2 * p) (by show c + 1 - 2 * p < c + 1 - p; omega) (by omega)
      have e2 := ih (2 * p + 1) (by show c + 1 - (2 * p + 1) < c + 1 - p; omega) (by omega)
      rw [List.nodup_append, List.nodup_append]
      refine ⟨⟨e1, by simp, ?_⟩, e2, ?_⟩
      · intro a ha b hb
        rw [mem_inorder (by omega)] at ha
        have := ha.2.le
        simp only [List.mem_singleton] at hb
        omega
      · intro a ha b hb
        rw [mem_inorder (by omega)] at hb
        simp only [List.mem_append, List.mem_singleton] at ha
        rintro rfl
        rcases ha with ha | ha
        · rw [mem_inorder (by omega)] at ha
          exact not_below_siblings hp ha.2 hb.2
        · have := hb.2.le
          omega

theorem mem_inorder_one {c k : Nat} : k ∈ inorder c 1 ↔ 1 ≤ k ∧ k ≤ c := by
  rw [mem_inorder (le_refl _)]
  constructor
  · rintro ⟨h1, h2⟩
    exact ⟨h2.le, h1⟩
  · rintro ⟨h1, h2⟩
    exact ⟨h2, below_one h1⟩

theorem length_inorder_one (c : Nat) : (inorder c 1).length = c := by
  have h : (inorder c 1).Perm (List.range' 1 c) := by
    rw [List.perm_ext_iff_of_nodup (nodup_inorder (le_refl _)) List.nodup_range']
    intro k
    rw [mem_inorder_one, List.mem_range'_1]
    omega
  rw [h.length_eq, List.length_range']

/-- The register of node `k`. -/
def pos (n k : Nat) : Nat := if k = n then n - 1 else (inorder (n - 1) 1).idxOf k

theorem position_eq {n k : Nat} (h1 : 1 ≤ k) (h2 : k ≤ n) : position n k = some (pos n k) := by
  unfold position pos
  split
  · rfl
  · rw [if_pos (mem_inorder_one.2 ⟨h1, by omega⟩)]

theorem pos_lt_of {n k : Nat} (h1 : 1 ≤ k) (h2 : k < n) : pos n k < n - 1 := by
  have h3 : k ∈ inorder (n - 1) 1 := mem_inorder_one.2 ⟨h1, by omega⟩
  have h4 := List.idxOf_lt_length_of_mem h3
  rw [length_inorder_one] at h4
  rw [pos, if_neg (by omega)]
  exact h4

theorem pos_lt {n k : Nat} (h1 : 1 ≤ k) (h2 : k ≤ n) : pos n k < n := by
  by_cases h : k = n
  · rw [pos, if_pos h]; omega
  · have := pos_lt_of h1 (lt_of_le_of_ne h2 h)
    omega

theorem pos_self (n : Nat) : pos n n = n - 1 := by simp [pos]

theorem pos_inj {n j k : Nat} (hj : 1 ≤ j) (hj' : j ≤ n) (hk : 1 ≤ k) (hk' : k ≤ n) (h : pos n j = pos n k) :
    j = k := by
  by_cases h1 : j = n <;> by_cases h2 : k = n
  · omega
  · have := pos_lt_of hk (lt_of_le_of_ne hk' h2)
    rw [h1, pos_self] at h
    omega
  · have := pos_lt_of hj (lt_of_le_of_ne hj' h1)
    rw [h2, pos_self] at h
    omega
  · rw [pos, pos, if_neg h1, if_neg h2] at h
    exact (List.idxOf_inj (mem_inorder_one.2 ⟨hj, by omega⟩)).1 h

theorem pos_surj {n i : Nat} (h : i < n - 1) : ∃ k, 1 ≤ k ∧ k < n ∧ pos n k = i := by
  have h1 : i < (inorder (n - 1) 1).length := by rwa [length_inorder_one]
  have h2 := mem_inorder_one.1 (List.getElem_mem h1)
  refine ⟨(inorder (n - 1) 1)[i], h2.1, by omega, ?_⟩
  rw [pos, if_neg (by omega)]
  exact (nodup_inorder (le_refl 1)).idxOf_getElem i h1

/-! ### The loop -/

/-- The level on which node `k` ends up. -/
def lev (c k : Nat) : Nat := if c / 4 < k then 0 else Nat.log2 c - 1 - Nat.log2 k

/-- The gates for node `k`. -/
def nodeGates (c k : Nat) : Option Gate × Option Gate :=
  if c / 4 < k then makeGates (2 * k) k (2 * k + 1) (decide (c < 2 * k + 1)) .id
  else makeGates (2 * k) k (2 * k + 1) true .sd

/-- Ternary gates counted for node `k`. -/
def ternOf (c k : Nat) : Nat :=
  if c / 4 < k then (if c < 2 * k + 1 then 2 else 4) else if k = c / 4 ∧ c % 4 < 2 then 4 else 0

/-- Quaternary gates counted for node `k`. -/
def quatOf (c k : Nat) : Nat := if c / 4 < k ∨ (k = c / 4 ∧ c % 4 < 2) then 0 else 4

/-- The state of the loop after the nodes `1, …, j`. -/
structure Inv (c j : Nat) (s : Sim) : Prop where
  queue : s.queue = List.range' (j + 1) ((if j < c / 4 then 2 * j + 1 else c / 2) - j)
  depth1 : s.depth1 = if j = 0 then 0 else if j < c / 4 then Nat.log2 j + 1 else Nat.log2 c
  levels : s.levels = (List.range (Nat.log2 c)).map fun i =>
    ((List.range' 1 j).filter fun k => decide (lev c k = i)).map (nodeGates c)
  tern : s.tern = ((List.range' 1 j).map (ternOf c)).sum
  quat : s.quat = ((List.range' 1 j).map (quatOf c)).sum
  qubits : ∀ x, x ∈ s.qubits ↔ x = c + 1 ∨ ∃ k, 1 ≤ k ∧ k ≤ j ∧ c / 4 < k ∧ x = 2 * k
  qutrits : ∀ x, x ∈ s.qutrits ↔ x = 1 ∨ ∃ k, 1 ≤ k ∧ k ≤ j ∧
    ((k ≤ c / 4 ∧ x = 2 * k) ∨ (c / 4 < k ∧ 2 * k + 1 ≤ c ∧ x = 2 * k + 1) ∨
      (k = c / 4 ∧ c % 4 < 2 ∧ x = 2 * k + 1))
  ququads : ∀ x, x ∈ s.ququads ↔ ∃ k, 1 ≤ k ∧ k ≤ j ∧ k ≤ c / 4 ∧ ¬ (k = c / 4 ∧ c % 4 < 2) ∧ x = 2 * k + 1

theorem hasRightGrandchild_iff (c : Nat) : hasRightGrandchild c = decide (¬ c % 4 < 2) := by
  unfold hasRightGrandchild
  rw [Bool.eq_iff_iff]
  simp only [beq_iff_eq, decide_eq_true_eq]
  omega

theorem log2_bounds {k : Nat} (h : 1 ≤ k) : 2 ^ Nat.log2 k ≤ k ∧ k < 2 * 2 ^ Nat.log2 k := by
  have h1 := Nat.log2_self_le (n := k) (by omega)
  have h2 := Nat.lt_log2_self (n := k)
  rw [pow_succ] at h2
  exact ⟨h1, by omega⟩

theorem log2_eq_of {k e : Nat} (h1 : 2 ^ e ≤ k) (h2 : k < 2 * 2 ^ e) : Nat.log2 k = e := by
  have h0 : 1 ≤ k := le_trans (Nat.one_le_two_pow) h1
  obtain ⟨h3, h4⟩ := log2_bounds h0
  rcases Nat.lt_trichotomy (Nat.log2 k) e with h | h | h
  · have := Nat.pow_le_pow_right (n := 2) (by omega) (show Nat.log2 k + 1 ≤ e from h)
    rw [pow_succ] at this
    omega
  · exact h
  · have := Nat.pow_le_pow_right (n := 2) (by omega) (show e + 1 ≤ Nat.log2 k from h)
    rw [pow_succ] at this
    omega

theorem log2_double {k : Nat} (h : 1 ≤ k) : Nat.log2 (2 * k) = Nat.log2 k + 1 := by
  obtain ⟨h1, h2⟩ := log2_bounds h
  apply log2_eq_of <;> rw [pow_succ] <;> omega

theorem log2_double_succ {k : Nat} (h : 1 ≤ k) : Nat.log2 (2 * k + 1) = Nat.log2 k + 1 := by
  obtain ⟨h1, h2⟩ := log2_bounds h
  apply log2_eq_of <;> rw [pow_succ] <;> omega

/-- The grandparent of the last node lies two levels above it. -/
theorem log2_quarter {c : Nat} (h : 4 ≤ c) : Nat.log2 c = Nat.log2 (c / 4) + 2 := by
  obtain ⟨h1, h2⟩ := log2_bounds (k := c / 4) (by omega)
  apply log2_eq_of <;> rw [pow_add] <;> omega

theorem log2_mono {j k : Nat} (h0 : 1 ≤ j) (h : j ≤ k) : Nat.log2 j ≤ Nat.log2 k := by
  obtain ⟨h1, h2⟩ := log2_bounds h0
  obtain ⟨h3, h4⟩ := log2_bounds (show 1 ≤ k by omega)
  by_contra hc
  have := Nat.pow_le_pow_right (n := 2) (by omega) (show Nat.log2 k + 1 ≤ Nat.log2 j by omega)
  rw [pow_succ] at this
  omega

/-- Numbering a node: a new level starts exactly at the powers of two. -/
theorem log2_succ {j : Nat} (h : 1 ≤ j) :
    (if j + 1 = 2 ^ (Nat.log2 j + 1) then Nat.log2 j + 2 else Nat.log2 j + 1) = Nat.log2 (j + 1) + 1 := by
  obtain ⟨h1, h2⟩ := log2_bounds h
  split
  · next e =>
    rw [log2_eq_of (k := j + 1) (e := Nat.log2 j + 1)] <;> rw [← e]; omega
  · next e =>
    rw [log2_eq_of (k := j + 1) (e := Nat.log2 j)]
    · omega
    · rw [pow_succ] at e
      omega

theorem lev_lt {c k : Nat} (hc : 2 ≤ c) : lev c k < Nat.log2 c := by
  have : 1 ≤ Nat.log2 c := by
    have := log2_mono (j := 2) (k := c) (by omega) hc
    simpa using this
  unfold lev
  split <;> omega

/-- Nodes on lower levels come first: the children of a node before the node. -/
theorem lev_child {c k j : Nat} (hc : 2 ≤ c) (hk : 1 ≤ k) (hj : j = 2 * k ∨ j = 2 * k + 1) (hjm : j ≤ c / 2) :
    lev c j < lev c k := by
  have hkg : ¬ c / 4 < k := by omega
  have h4 : 4 ≤ c := by omega
  have h1 := log2_quarter h4
  have h2 := log2_mono hk (show k ≤ c / 4 by omega)
  unfold lev
  rw [if_neg hkg]
  split
  · omega
  · have : Nat.log2 j = Nat.log2 k + 1 := by
      rcases hj with rfl | rfl
      · exact log2_double hk
      · exact log2_double_succ hk
    have h3 := log2_mono (j := j) (k := c / 4) (by omega) (by omega)
    omega

theorem one_le_log2 {c : Nat} (hc : 2 ≤ c) : 1 ≤ Nat.log2 c := by
  have := log2_mono (j := 2) (k := c) (by omega) hc
  simpa using this

theorem inv_start {c : Nat} (hc : 2 ≤ c) : Inv c 0 (Sim.start (c + 1)) where
  queue := by
    simp only [Sim.start]
    split
    · rfl
    · rw [show c / 2 - 0 = 1 by omega]; rfl
  depth1 := rfl
  levels := by
    apply List.ext_getElem <;> simp [Sim.start]
  tern := rfl
  quat := rfl
  qubits := by intro x; simp [Sim.start]
  qutrits := by intro x; simp [Sim.start]
  ququads := by intro x; simp [Sim.start]

/-- `current_depth + 1` after the test at line 189. -/
theorem depth_at {c j d : Nat} (hc : 2 ≤ c) (hj : j < c / 2)
    (h : d = if j = 0 then 0 else if j < c / 4 then Nat.log2 j + 1 else Nat.log2 c) :
    (if j + 1 = 2 ^ d then d + 1 else d) = Nat.log2 c - lev c (j + 1) := by
  have h0 := one_le_log2 hc
  obtain ⟨hc1, hc2⟩ := log2_bounds (k := c) (by omega)
  by_cases j0 : j = 0
  · subst j0
    rw [if_pos rfl] at h
    subst h
    simp only [lev, Nat.zero_add, pow_zero, if_true]
    split
    · have : Nat.log2 c = 1 := log2_eq_of (by omega) (by omega)
      omega
    · have : Nat.log2 1 = 0 := by rfl
      omega
  · rw [if_neg j0] at h
    by_cases hg : j < c / 4
    · rw [if_pos hg] at h
      have h1 := log2_succ (j := j) (by omega)
      have h2 := log2_quarter (c := c) (by omega)
      have h3 := log2_mono (j := j + 1) (k := c / 4) (by omega) (by omega)
      have e : lev c (j + 1) = Nat.log2 c - 1 - Nat.log2 (j + 1) := by rw [lev, if_neg (by omega)]
      rw [e, h, h1]
      omega
    · rw [if_neg hg] at h
      have e : lev c (j + 1) = 0 := by rw [lev, if_pos (by omega)]
      rw [e, h, if_neg (by omega)]
      omega

theorem modify_levels {c j : Nat} :
    ((List.range (Nat.log2 c)).map fun i =>
        ((List.range' 1 j).filter fun k => decide (lev c k = i)).map (nodeGates c)).modify (lev c (j + 1))
        (· ++ [nodeGates c (j + 1)]) =
      (List.range (Nat.log2 c)).map fun i =>
        ((List.range' 1 (j + 1)).filter fun k => decide (lev c k = i)).map (nodeGates c) := by
  apply List.ext_getElem
  · simp
  · intro i h1 h2
    simp only [List.getElem_modify, List.getElem_map, List.getElem_range]
    rw [show List.range' 1 (j + 1) = List.range' 1 j ++ [j + 1] by
      rw [List.range'_concat]; simp [Nat.add_comm]]
    rw [List.filter_append, List.map_append]
    split
    · next h => simp [h]
    · next h => simp [h]

section
variable (c k : Nat) (s : Sim)

theorem branch_queue : (branch c k s).1.queue =
    s.queue ++ if c / 4 < k then [] else if k = c / 4 ∧ c % 4 < 2 then [2 * k] else [2 * k, 2 * k + 1] := by
  unfold branch
  rw [hasRightGrandchild_iff]
  dsimp only
  by_cases h1 : c / 4 < k
  · by_cases h2 : c < 2 * k + 1 <;> simp [h1, h2]
  · by_cases h2 : k = c / 4
    · by_cases h3 : c % 4 < 2
      · simp [h2, h3]
      · simp [h2, h3]
    · simp [h1, h2]

theorem branch_depth1 : (branch c k s).1.depth1 = s.depth1 + if k = c / 4 then 1 else 0 := by
  unfold branch
  dsimp only
  by_cases h1 : c / 4 < k
  · by_cases h2 : c < 2 * k + 1 <;> simp [h1, h2] <;> omega
  · by_cases h2 : k = c / 4
    · by_cases h3 : hasRightGrandchild c <;> simp [h2, h3]
    · simp [h1, h2]

theorem branch_levels : (branch c k s).1.levels = s.levels := by
  unfold branch
  dsimp only
  split_ifs <;> rfl

theorem branch_tern : (branch c k s).1.tern = s.tern + ternOf c k := by
  unfold branch ternOf
  rw [hasRightGrandchild_iff]
  dsimp only
  by_cases h1 : c / 4 < k
  · by_cases h2 : c < 2 * k + 1 <;> simp [h1, h2]
  · by_cases h2 : k = c / 4
    · by_cases h3 : c % 4 < 2
      · simp [h2, h3]
      · simp [h2, h3]
    · simp [h1, h2]

theorem branch_quat : (branch c k s).1.quat = s.quat + quatOf c k := by
  unfold branch quatOf
  rw [hasRightGrandchild_iff]
  dsimp only
  by_cases h1 : c / 4 < k
  · by_cases h2 : c < 2 * k + 1 <;> simp [h1, h2]
  · by_cases h2 : k = c / 4
    · by_cases h3 : c % 4 < 2
      · simp [h2, h3]
      · simp [h2, h3]
    · simp [h1, h2]

theorem branch_qubits (x : Nat) : x ∈ (branch c k s).1.qubits ↔ x ∈ s.qubits ∨ (c / 4 < k ∧ x = 2 * k) := by
  unfold branch
  rw [hasRightGrandchild_iff]
  dsimp only
  by_cases h1 : c / 4 < k
  · by_cases h2 : c < 2 * k + 1 <;> simp [h1, h2, or_comm]
  · by_cases h2 : k = c / 4
    · by_cases h3 : c % 4 < 2
      · simp [h2, h3]
      · simp [h2, h3, show 1 < c % 4 by omega]
    · simp [h1, h2]

theorem branch_qutrits (x : Nat) : x ∈ (branch c k s).1.qutrits ↔ x ∈ s.qutrits ∨
    ((k ≤ c / 4 ∧ x = 2 * k) ∨ (c / 4 < k ∧ 2 * k + 1 ≤ c ∧ x = 2 * k + 1) ∨
      (k = c / 4 ∧ c % 4 < 2 ∧ x = 2 * k + 1)) := by
  unfold branch
  rw [hasRightGrandchild_iff]
  dsimp only
  by_cases h1 : c / 4 < k
  · by_cases h2 : c < 2 * k + 1
    · rw [if_pos h1, if_pos h2]
      constructor
      · exact .inl
      · rintro (h | h)
        · exact h
        · omega
    · rw [if_pos h1, if_neg h2]
      simp only [Finset.mem_insert]
      constructor
      · rintro (h | h)
        · right; omega
        · exact .inl h
      · rintro (h | h)
        · exact .inr h
        · left; omega
  · by_cases h2 : k = c / 4
    · by_cases h3 : c % 4 < 2
      · rw [if_neg h1, if_pos h2, if_neg (by simpa using h3)]
        simp only [Finset.mem_insert]
        constructor
        · rintro (h | h | h)
          · right; omega
          · right; omega
          · exact .inl h
        · rintro (h | h)
          · exact .inr (.inr h)
          · omega
      · rw [if_neg h1, if_pos h2, if_pos (by simpa using h3)]
        simp only [Finset.mem_insert]
        constructor
        · rintro (h | h)
          · right; omega
          · exact .inl h
        · rintro (h | h)
          · exact .inr h
          · left; omega
    · rw [if_neg h1, if_neg h2]
      simp only [Finset.mem_insert]
      constructor
      · rintro (h | h)
        · right; omega
        · exact .inl h
      · rintro (h | h)
        · exact .inr h
        · left; omega

theorem branch_ququads (x : Nat) : x ∈ (branch c k s).1.ququads ↔ x ∈ s.ququads ∨
    (k ≤ c / 4 ∧ ¬ (k = c / 4 ∧ c % 4 < 2) ∧ x = 2 * k + 1) := by
  unfold branch
  rw [hasRightGrandchild_iff]
  dsimp only
  by_cases h1 : c / 4 < k
  · by_cases h2 : c < 2 * k + 1 <;> simp [h1, h2] <;> omega
  · by_cases h2 : k = c / 4
    · by_cases h3 : c % 4 < 2
      · simp [h2, h3]
      · simp [h2, h3, show 1 < c % 4 by omega, or_comm]
    · simp [h2, or_comm, show k ≤ c / 4 by omega, show ¬ c / 4 < k by omega]

theorem branch_gates : makeGates (2 * k) k (2 * k + 1) (branch c k s).2.1 (branch c k s).2.2 = nodeGates c k := by
  unfold branch nodeGates
  by_cases h1 : c / 4 < k
  · by_cases h2 : c < 2 * k + 1 <;> simp [h1, h2]
  · by_cases h2 : k = c / 4
    · by_cases h3 : hasRightGrandchild c <;> simp [h2, h3, makeGates]
    · simp [h1, h2, makeGates]

end

theorem inv_step {c j : Nat} (hc : 2 ≤ c) (hj : j < c / 2) {s : Sim} (hs : Inv c j s) :
    ∃ q s', s.queue = (j + 1) :: q ∧ step c (j + 1) { s with queue := q } = .ok s' ∧ Inv c (j + 1) s' := by
  have hlev := lev_lt (k := j + 1) hc
  have hd := depth_at hc hj hs.depth1
  obtain ⟨L, hL⟩ : ∃ L, (if j < c / 4 then 2 * j + 1 else c / 2) - j = L + 1 :=
    ⟨(if j < c / 4 then 2 * j + 1 else c / 2) - j - 1, by split <;> omega⟩
  have hq : s.queue = (j + 1) :: List.range' (j + 2) L := by
    rw [hs.queue, hL, List.range'_succ]
  have hlen : s.levels.length = Nat.log2 c := by rw [hs.levels]; simp
  have hr : List.range' 1 (j + 1) = List.range' 1 j ++ [j + 1] := by
    rw [List.range'_concat]; simp [Nat.add_comm]
  obtain ⟨k, hk⟩ : ∃ k, k = Nat.log2 c - lev c (j + 1) := ⟨_, rfl⟩
  have hidx : pyIndex (Nat.log2 c) ((Nat.log2 c : Int) - 1 - ((k : Int) - 1)) = .ok (lev c (j + 1)) := by
    subst hk
    unfold pyIndex
    rw [if_pos (by omega), if_pos (by omega)]
    congr 1
    omega
  obtain ⟨t, ht⟩ : ∃ t : Sim, t = { s with queue := List.range' (j + 2) L, depth1 := k } := ⟨_, rfl⟩
  have hstep : step c (j + 1) { s with queue := List.range' (j + 2) L } =
      .ok { (branch c (j + 1) t).1 with
        levels := (branch c (j + 1) t).1.levels.modify (lev c (j + 1)) (· ++ [nodeGates c (j + 1)]) } := by
    have e : (if j + 1 = 2 ^ s.depth1 then { s with queue := List.range' (j + 2) L, depth1 := s.depth1 + 1 }
        else { s with queue := List.range' (j + 2) L } : Sim) = t := by
      rw [ht, hk, ← hd]
      split <;> rfl
    unfold step
    dsimp only
    rw [e]
    have e1 : t.levels.length = Nat.log2 c := by rw [ht]; exact hlen
    have e2 : t.depth1 = k := by rw [ht]
    rw [e1, e2, hidx, branch_gates]
  refine ⟨_, _, hq, hstep, ?_⟩
  have hk0 : j + 1 < c / 4 → k = Nat.log2 (j + 1) + 1 := by
    intro h
    have h2 := log2_quarter (c := c) (by omega)
    have h3 := log2_mono (j := j + 1) (k := c / 4) (by omega) (by omega)
    have e : lev c (j + 1) = Nat.log2 c - 1 - Nat.log2 (j + 1) := by rw [lev, if_neg (by omega)]
    omega
  have hk1 : j + 1 = c / 4 → k + 1 = Nat.log2 c := by
    intro h
    have h2 := log2_quarter (c := c) (by omega)
    have e : lev c (j + 1) = Nat.log2 c - 1 - Nat.log2 (j + 1) := by rw [lev, if_neg (by omega)]
    rw [h, h2] at e
    rw [h, e, h2] at hk
    omega
  have hk2 : c / 4 < j + 1 → k = Nat.log2 c := by
    intro h
    have e : lev c (j + 1) = 0 := by rw [lev, if_pos (by omega)]
    omega
  have tq : t.queue = List.range' (j + 2) L := by rw [ht]
  have td : t.depth1 = k := by rw [ht]
  have tl : t.levels = s.levels := by rw [ht]
  have ex : ∀ (x : Nat) {A : Prop} {C : Nat → Prop}, (A ∨ (∃ k, 1 ≤ k ∧ k ≤ j ∧ C k)) ∨ C (j + 1) ↔
      A ∨ ∃ k, 1 ≤ k ∧ k ≤ j + 1 ∧ C k := by
    intro x A C
    rw [or_assoc]
    apply or_congr Iff.rfl
    constructor
    · rintro (⟨k, h1, h2, h3⟩ | h)
      · exact ⟨k, h1, by omega, h3⟩
      · exact ⟨j + 1, by omega, by omega, h⟩
    · rintro ⟨k, h1, h2, h3⟩
      by_cases e : k = j + 1
      · subst e; exact .inr h3
      · exact .inl ⟨k, h1, by omega, h3⟩
  constructor
  · show (branch c (j + 1) t).1.queue = _
    rw [branch_queue, tq]
    by_cases h1 : c / 4 < j + 1
    · rw [if_pos h1, if_neg (by omega)]
      rw [if_neg (by omega)] at hL
      rw [List.append_nil]
      congr 1
      omega
    · rw [if_neg h1]
      rw [if_pos (by omega)] at hL
      by_cases h2 : j + 1 = c / 4 ∧ c % 4 < 2
      · rw [if_pos h2, if_neg (by omega), show c / 2 - (j + 1) = L + 1 by omega, List.range'_concat]
        congr 2
        simp only [one_mul]
        omega
      · rw [if_neg h2]
        have : (if j + 1 < c / 4 then 2 * (j + 1) + 1 else c / 2) - (j + 1) = L + 2 := by
          split <;> omega
        rw [this, show L + 2 = (L + 1) + 1 from rfl, List.range'_concat, List.range'_concat, List.append_assoc]
        congr 1
        simp only [List.cons_append, List.nil_append, List.cons.injEq, and_true]
        omega
  · show (branch c (j + 1) t).1.depth1 = _
    rw [branch_depth1, td, if_neg (show ¬ j + 1 = 0 by omega)]
    by_cases h1 : c / 4 < j + 1
    · rw [if_neg (by omega), if_neg (by omega), hk2 h1]
      rfl
    · by_cases h2 : j + 1 = c / 4
      · rw [if_pos h2, if_neg (by omega), hk1 h2]
      · rw [if_neg h2, if_pos (by omega), hk0 (by omega)]
  · show List.modify (branch c (j + 1) t).1.levels _ _ = _
    rw [branch_levels, tl, hs.levels, modify_levels]
  · show (branch c (j + 1) t).1.tern = _
    rw [branch_tern, hr, List.map_append, List.sum_append, ← hs.tern, ht]
    simp
  · show (branch c (j + 1) t).1.quat = _
    rw [branch_quat, hr, List.map_append, List.sum_append, ← hs.quat, ht]
    simp
  · intro x
    show x ∈ (branch c (j + 1) t).1.qubits ↔ _
    rw [branch_qubits, show t.qubits = s.qubits by rw [ht], hs.qubits]
    exact ex x
  · intro x
    show x ∈ (branch c (j + 1) t).1.qutrits ↔ _
    rw [branch_qutrits, show t.qutrits = s.qutrits by rw [ht], hs.qutrits]
    exact ex x (C := fun k => ((k ≤ c / 4 ∧ x = 2 * k) ∨ (c / 4 < k ∧ 2 * k + 1 ≤ c ∧ x = 2 * k + 1) ∨
      (k = c / 4 ∧ c % 4 < 2 ∧ x = 2 * k + 1)))
  · intro x
    show x ∈ (branch c (j + 1) t).1.ququads ↔ _
    rw [branch_ququads, show t.ququads = s.ququads by rw [ht], hs.ququads]
    have := ex x (A := False) (C := fun k => k ≤ c / 4 ∧ ¬ (k = c / 4 ∧ c % 4 < 2) ∧ x = 2 * k + 1)
    simpa only [false_or] using this

/-- Enough passes empty the queue: the loop visits the nodes `1, …, c/2` in order. -/
theorem loop_ends {c : Nat} (hc : 2 ≤ c) {fuel j : Nat} {s : Sim} (hj : j ≤ c / 2) (hf : c / 2 - j ≤ fuel)
    (hs : Inv c j s) : ∃ s', loop c fuel s = .ok s' ∧ s'.queue = [] ∧ Inv c (c / 2) s' := by
  have hend : ∀ {s : Sim}, Inv c (c / 2) s → s.queue = [] := by
    intro s hs
    rw [hs.queue, if_neg (by omega), Nat.sub_self]
    rfl
  induction fuel generalizing j s with
  | zero =>
    have : j = c / 2 := by omega
    subst this
    exact ⟨s, rfl, hend hs, hs⟩
  | succ fuel ih =>
    rcases Nat.lt_or_ge j (c / 2) with h | h
    · obtain ⟨q, s', h1, h2, h3⟩ := inv_step hc h hs
      obtain ⟨s'', h4⟩ := ih (by omega) (by omega) h3
      refine ⟨s'', ?_, h4.2⟩
      rw [loop, h1]
      show (do loop c fuel (← step c (j + 1) { s with queue := q })) = _
      rw [h2]
      exact h4.1
    · have : j = c / 2 := by omega
      subst this
      refine ⟨s, ?_, hend hs, hs⟩
      rw [loop, hend hs]

end QuDiet.Tree
