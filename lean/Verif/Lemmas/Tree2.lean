import Verif.Lemmas.Tree
import Verif.Spec

/-! # Lemmas: the levels of the registers while the decomposition runs -/

namespace QuDiet.Tree
open Spec
open scoped Classical

/-- All bits in the subtree of `p` are 1. -/
def Full (c : Nat) (b : Nat → Nat) (p : Nat) : Prop := ∀ k, k ≤ c → Below k p → b k = 1

theorem full_iff {c : Nat} {b : Nat → Nat} {p : Nat} (hp : p ≤ c) :
    Full c b p ↔ b p = 1 ∧ Full c b (2 * p) ∧ Full c b (2 * p + 1) := by
  constructor
  · intro h
    exact ⟨h p hp (Below.refl p), fun k h1 h2 => h k h1 (below_iff.2 (.inr (.inl h2))),
      fun k h1 h2 => h k h1 (below_iff.2 (.inr (.inr h2)))⟩
  · rintro ⟨h1, h2, h3⟩ k hk hb
    rcases below_iff.1 hb with rfl | hb | hb
    · exact h1
    · exact h2 k hk hb
    · exact h3 k hk hb

theorem full_of_lt {c : Nat} {b : Nat → Nat} {p : Nat} (hp : c < p) : Full c b p := by
  intro k hk hb
  have := hb.le
  omega

/-- The dimension of the register of node `k`. -/
def dim (c k : Nat) : Nat :=
  if k = c + 1 then 2 else if k = 1 then 3 else
    if k % 2 = 0 then (if k ≤ c / 2 then 3 else 2) else if k ≤ c / 2 then 4 else 3

/-- The level of node `k` when exactly the nodes in `P` have received the increment from their
children, and exactly the nodes in `S` had the increment from their left child to their right child. -/
noncomputable def lvl (c : Nat) (b : Nat → Nat) (t : Nat) (P S : Nat → Prop) (k : Nat) : Nat :=
  if k = c + 1 then t
  else b k + (if P k ∧ Full c b (2 * k) ∧ Full c b (2 * k + 1) then 1 else 0)
    + (if S (k / 2) ∧ k % 2 = 1 ∧ Full c b (k - 1) then 1 else 0)

/-- One controlled increment, on levels indexed by nodes. -/
def act (c : Nat) (ctl tgt : Nat) (p : Int) (f : Nat → Nat) : Nat → Nat := fun k =>
  if k = tgt ∧ f ctl + 1 = dim c ctl then (((f tgt : Int) + p) % (dim c tgt : Int)).toNat else f k

/-- The gates for node `k`, as control, target, increment. -/
def forward (c k : Nat) : List (Nat × Nat × Int) :=
  if c < 2 * k + 1 then [(2 * k, k, 1)] else [(2 * k, 2 * k + 1, 1), (2 * k + 1, k, 1)]

/-- The gates of the reflection of node `k`. -/
def backward (c k : Nat) : List (Nat × Nat × Int) :=
  if c < 2 * k + 1 then [(2 * k, k, -1)] else [(2 * k + 1, k, -1), (2 * k, 2 * k + 1, -1)]

/-- Controlled increments in sequence. -/
def acts (c : Nat) (gs : List (Nat × Nat × Int)) (f : Nat → Nat) : Nat → Nat :=
  gs.foldl (fun f g => act c g.1 g.2.1 g.2.2 f) f

/-- Agreement on the nodes of the circuit. -/
def Agree (c : Nat) (f g : Nat → Nat) : Prop := ∀ k, 1 ≤ k → k ≤ c + 1 → f k = g k

theorem act_congr {c ctl tgt : Nat} {p : Int} {f g : Nat → Nat} (h : Agree c f g) (h1 : 1 ≤ ctl)
    (h2 : ctl ≤ c + 1) (h3 : 1 ≤ tgt) (h4 : tgt ≤ c + 1) : Agree c (act c ctl tgt p f) (act c ctl tgt p g) := by
  intro k hk hk'
  unfold act
  rw [h ctl h1 h2, h tgt h3 h4, h k hk hk']

section
variable {c t : Nat} {b : Nat → Nat}

theorem dim_left_leaf {k : Nat} (h : 2 * k ≤ c) (h' : c / 2 < 2 * k) : dim c (2 * k) = 2 := by
  unfold dim
  rw [if_neg (by omega), if_neg (by omega), if_pos (by omega), if_neg (by omega)]

theorem dim_left_inner {k : Nat} (hk : 1 ≤ k) (h : 2 * k ≤ c / 2) : dim c (2 * k) = 3 := by
  unfold dim
  rw [if_neg (by omega), if_neg (by omega), if_pos (by omega), if_pos (by omega)]

theorem dim_right_leaf {k : Nat} (hk : 1 ≤ k) (h : 2 * k + 1 ≤ c) (h' : c / 2 < 2 * k + 1) :
    dim c (2 * k + 1) = 3 := by
  unfold dim
  rw [if_neg (by omega), if_neg (by omega), if_neg (by omega), if_neg (by omega)]

theorem dim_right_inner {k : Nat} (hk : 1 ≤ k) (h : 2 * k + 1 ≤ c / 2) : dim c (2 * k + 1) = 4 := by
  unfold dim
  rw [if_neg (by omega), if_neg (by omega), if_neg (by omega), if_pos (by omega)]

variable (hb : ∀ k, b k ≤ 1) {P S : Nat → Prop} {k : Nat} (hP : ∀ k, P k → 1 ≤ k ∧ k ≤ c / 2)
include hb hP

/-- A left child is at its top level iff its subtree is full, once its own children are done. -/
theorem left_top (hk : 1 ≤ k) (hkm : k ≤ c / 2) (hl : 2 * k ≤ c / 2 → P (2 * k)) :
    lvl c b t P S (2 * k) + 1 = dim c (2 * k) ↔ Full c b (2 * k) := by
  have hbk := hb (2 * k)
  unfold lvl
  rw [if_neg (show ¬ 2 * k = c + 1 by omega),
    if_neg (show ¬ (S (2 * k / 2) ∧ 2 * k % 2 = 1 ∧ Full c b (2 * k - 1)) by omega)]
  rw [full_iff (show 2 * k ≤ c by omega)]
  by_cases h : 2 * k ≤ c / 2
  · rw [dim_left_inner hk h]
    by_cases h2 : Full c b (2 * (2 * k)) ∧ Full c b (2 * (2 * k) + 1)
    · rw [if_pos ⟨hl h, h2⟩]
      simp only [h2, and_true]
      omega
    · rw [if_neg (fun h3 => h2 h3.2)]
      simp only [h2, and_false, iff_false]
      omega
  · rw [dim_left_leaf (by omega) (by omega), if_neg (fun h3 => h (hP _ h3.1).2)]
    simp only [full_of_lt (show c < 2 * (2 * k) by omega), full_of_lt (show c < 2 * (2 * k) + 1 by omega), and_true]
    omega

/-- A right child is at its top level iff both subtrees are full, once its own children and the
increment from its sibling are done. -/
theorem right_top (hk : 1 ≤ k) (hkc : 2 * k + 1 ≤ c) (hr : 2 * k + 1 ≤ c / 2 → P (2 * k + 1)) (hS : S k) :
    lvl c b t P S (2 * k + 1) + 1 = dim c (2 * k + 1) ↔ Full c b (2 * k) ∧ Full c b (2 * k + 1) := by
  have hbk := hb (2 * k + 1)
  unfold lvl
  have e1 : (2 * k + 1) / 2 = k := by omega
  have e2 : (2 * k + 1) % 2 = 1 := by omega
  rw [if_neg (show ¬ 2 * k + 1 = c + 1 by omega), e1, e2, Nat.add_sub_cancel]
  rw [full_iff hkc]
  by_cases h0 : Full c b (2 * k)
  · simp only [h0, hS, true_and, if_true]
    by_cases h : 2 * k + 1 ≤ c / 2
    · rw [dim_right_inner hk h]
      by_cases h2 : Full c b (2 * (2 * k + 1)) ∧ Full c b (2 * (2 * k + 1) + 1)
      · rw [if_pos ⟨hr h, h2⟩]
        simp only [h2, and_true]
        omega
      · rw [if_neg (fun h3 => h2 h3.2)]
        simp only [h2, and_false, iff_false]
        omega
    · rw [dim_right_leaf hk hkc (by omega), if_neg (fun h3 => h (hP _ h3.1).2)]
      simp only [full_of_lt (show c < 2 * (2 * k + 1) by omega),
        full_of_lt (show c < 2 * (2 * k + 1) + 1 by omega), and_true]
      omega
  · simp only [h0, false_and, and_false, if_false, iff_false]
    by_cases h : 2 * k + 1 ≤ c / 2
    · rw [dim_right_inner hk h]
      split <;> omega
    · rw [dim_right_leaf hk hkc (by omega), if_neg (fun h3 => h (hP _ h3.1).2)]
      omega

/-- The levels stay below the dimensions. -/
theorem lvl_lt (ht : t ≤ 1) (hS0 : ¬ S 0) (hk : 1 ≤ k) (hkc : k ≤ c + 1) : lvl c b t P S k < dim c k := by
  have hbk := hb k
  unfold lvl
  by_cases h0 : k = c + 1
  · rw [if_pos h0, dim, if_pos h0]; omega
  rw [if_neg h0]
  rcases Nat.even_or_odd' k with ⟨q, rfl | rfl⟩
  · rw [if_neg (show ¬ (S (2 * q / 2) ∧ 2 * q % 2 = 1 ∧ Full c b (2 * q - 1)) by omega)]
    by_cases h : 2 * q ≤ c / 2
    · rw [dim_left_inner (by omega) h]
      split <;> omega
    · rw [dim_left_leaf (by omega) (by omega), if_neg (fun h3 => h (hP _ h3.1).2)]
      omega
  · by_cases hq : q = 0
    · subst hq
      rw [if_neg (show ¬ (S ((2 * 0 + 1) / 2) ∧ (2 * 0 + 1) % 2 = 1 ∧ Full c b (2 * 0 + 1 - 1)) from
        fun h => hS0 h.1)]
      have : dim c (2 * 0 + 1) = 3 := by rw [dim, if_neg h0, if_pos rfl]
      rw [this]
      split <;> omega
    · by_cases h : 2 * q + 1 ≤ c / 2
      · rw [dim_right_inner (by omega) h]
        split <;> split <;> omega
      · rw [dim_right_leaf (by omega) (by omega) (by omega), if_neg (fun h3 => h (hP _ h3.1).2)]
        split <;> omega

end

/-! ### The three kinds of gates -/

theorem emod_up {v d : Nat} (h : v + 1 < d) : (((v : Int) + 1) % (d : Int)).toNat = v + 1 := by
  rw [Int.emod_eq_of_lt (by omega) (by omega)]
  omega

theorem emod_down {v d : Nat} (h : v + 1 < d) : ((((v + 1 : Nat) : Int) + -1) % (d : Int)).toNat = v := by
  rw [Int.emod_eq_of_lt (by omega) (by omega)]
  omega

/-- A gate that fires iff `F` and moves the level of `tgt` between `lo` and `lo + [F]`. -/
theorem act_agree {c ctl tgt : Nat} {f g : Nat → Nat} {F : Prop} [Decidable F] (hne : ctl ≠ tgt)
    (hF : f ctl + 1 = dim c ctl ↔ F) (htgt : g tgt = f tgt + if F then 1 else 0)
    (hlt : g tgt < dim c tgt) (hoff : ∀ k, 1 ≤ k → k ≤ c + 1 → k ≠ tgt → g k = f k)
    (hc : 1 ≤ ctl) (hc' : ctl ≤ c + 1) :
    Agree c (act c ctl tgt 1 f) g ∧ Agree c (act c ctl tgt (-1) g) f := by
  have hF' : g ctl + 1 = dim c ctl ↔ F := by rw [hoff ctl hc hc' hne, hF]
  constructor
  · intro k hk hk'
    unfold act
    by_cases e : k = tgt
    · subst e
      by_cases h : F
      · rw [if_pos ⟨rfl, hF.2 h⟩, htgt, if_pos h]
        rw [if_pos h] at htgt
        exact emod_up (by omega)
      · rw [if_neg (fun h2 => h (hF.1 h2.2)), htgt, if_neg h]
        rfl
    · rw [if_neg (fun h => e h.1), hoff k hk hk' e]
  · intro k hk hk'
    unfold act
    by_cases e : k = tgt
    · subst e
      by_cases h : F
      · rw [if_pos h] at htgt
        rw [if_pos ⟨rfl, hF'.2 h⟩, htgt]
        exact emod_down (by omega)
      · rw [if_neg (fun h2 => h (hF'.1 h2.2)), htgt, if_neg h]
        rfl
    · rw [if_neg (fun h => e h.1), hoff k hk hk' e]

section
variable {c t : Nat} {b : Nat → Nat} (hb : ∀ k, b k ≤ 1) (ht : t ≤ 1)
  {P P' S S' : Nat → Prop} {k : Nat} (hk : 1 ≤ k) (hkm : k ≤ c / 2)
  (hP : ∀ k, P k → 1 ≤ k ∧ k ≤ c / 2) (hS0 : ¬ S 0)
include hb ht hk hkm hP hS0

/-- From the left child to the right child. -/
theorem gate_sibling (hkc : 2 * k + 1 ≤ c) (hl : 2 * k ≤ c / 2 → P (2 * k)) (hSk : ¬ S k)
    (hS' : ∀ x, S' x ↔ S x ∨ x = k) :
    Agree c (act c (2 * k) (2 * k + 1) 1 (lvl c b t P S)) (lvl c b t P S') ∧
    Agree c (act c (2 * k) (2 * k + 1) (-1) (lvl c b t P S')) (lvl c b t P S) := by
  have hS0' : ¬ S' 0 := by rw [hS']; rintro (h | h); exacts [hS0 h, by omega]
  refine act_agree (F := Full c b (2 * k)) (by omega) (left_top hb hP hk hkm hl) ?_
    (lvl_lt hb hP ht hS0' (by omega) (by omega)) ?_ (by omega) (by omega)
  · unfold lvl
    have e1 : (2 * k + 1) / 2 = k := by omega
    have e2 : (2 * k + 1) % 2 = 1 := by omega
    have e0 : ¬ 2 * k + 1 = c + 1 := by omega
    rw [if_neg e0, if_neg e0, e1, e2, Nat.add_sub_cancel]
    rw [if_neg (show ¬ (S k ∧ 1 = 1 ∧ Full c b (2 * k)) from fun h => hSk h.1)]
    simp only [(hS' k).2 (.inr rfl), true_and]
    rfl
  · intro j h1 h2 h3
    unfold lvl
    have : (S' (j / 2) ∧ j % 2 = 1 ∧ Full c b (j - 1)) ↔ (S (j / 2) ∧ j % 2 = 1 ∧ Full c b (j - 1)) := by
      rw [hS']
      constructor
      · rintro ⟨h4 | h4, h5, h6⟩
        · exact ⟨h4, h5, h6⟩
        · omega
      · rintro ⟨h4, h5, h6⟩
        exact ⟨.inl h4, h5, h6⟩
    simp only [this]

/-- From the right child to the node. -/
theorem gate_parent (hkc : 2 * k + 1 ≤ c) (hr : 2 * k + 1 ≤ c / 2 → P (2 * k + 1)) (hSk : S k) (hPk : ¬ P k)
    (hP' : ∀ x, P' x ↔ P x ∨ x = k) :
    Agree c (act c (2 * k + 1) k 1 (lvl c b t P S)) (lvl c b t P' S) ∧
    Agree c (act c (2 * k + 1) k (-1) (lvl c b t P' S)) (lvl c b t P S) := by
  have hP1 : ∀ k, P' k → 1 ≤ k ∧ k ≤ c / 2 := by
    intro x hx
    rcases (hP' x).1 hx with h | rfl
    · exact hP x h
    · exact ⟨hk, hkm⟩
  refine act_agree (F := Full c b (2 * k) ∧ Full c b (2 * k + 1)) (by omega) (right_top hb hP hk hkc hr hSk) ?_
    (lvl_lt hb hP1 ht hS0 (by omega) (by omega)) ?_ (by omega) (by omega)
  · unfold lvl
    have e0 : ¬ k = c + 1 := by omega
    rw [if_neg e0, if_neg e0]
    rw [if_neg (show ¬ (P k ∧ Full c b (2 * k) ∧ Full c b (2 * k + 1)) from fun h => hPk h.1)]
    simp only [(hP' k).2 (.inr rfl), true_and]
    split <;> split <;> omega
  · intro j h1 h2 h3
    unfold lvl
    have : P' j ↔ P j := by
      rw [hP']
      constructor
      · rintro (h | h)
        · exact h
        · exact absurd h h3
      · exact .inl
    simp only [this]

/-- From an only child to the node. -/
theorem gate_only (hkc : c < 2 * k + 1) (hl : 2 * k ≤ c / 2 → P (2 * k)) (hPk : ¬ P k)
    (hP' : ∀ x, P' x ↔ P x ∨ x = k) :
    Agree c (act c (2 * k) k 1 (lvl c b t P S)) (lvl c b t P' S) ∧
    Agree c (act c (2 * k) k (-1) (lvl c b t P' S)) (lvl c b t P S) := by
  have hP1 : ∀ k, P' k → 1 ≤ k ∧ k ≤ c / 2 := by
    intro x hx
    rcases (hP' x).1 hx with h | rfl
    · exact hP x h
    · exact ⟨hk, hkm⟩
  refine act_agree (F := Full c b (2 * k)) (by omega) (left_top hb hP hk hkm hl) ?_
    (lvl_lt hb hP1 ht hS0 (by omega) (by omega)) ?_ (by omega) (by omega)
  · unfold lvl
    have e0 : ¬ k = c + 1 := by omega
    rw [if_neg e0, if_neg e0]
    rw [if_neg (show ¬ (P k ∧ Full c b (2 * k) ∧ Full c b (2 * k + 1)) from fun h => hPk h.1)]
    simp only [(hP' k).2 (.inr rfl), true_and, full_of_lt hkc, and_true]
    split <;> split <;> omega
  · intro j h1 h2 h3
    unfold lvl
    have : P' j ↔ P j := by
      rw [hP']
      constructor
      · rintro (h | h)
        · exact h
        · exact absurd h h3
      · exact .inl
    simp only [this]

omit hS0 in
/-- All the gates of a node, forwards and backwards. -/
theorem node_gates (hl : 2 * k ≤ c / 2 → P (2 * k)) (hr : 2 * k + 1 ≤ c / 2 → P (2 * k + 1)) (hPk : ¬ P k)
    (hP' : ∀ x, P' x ↔ P x ∨ x = k) :
    Agree c (acts c (forward c k) (lvl c b t P P)) (lvl c b t P' P') ∧
    Agree c (acts c (backward c k) (lvl c b t P' P')) (lvl c b t P P) := by
  have hP0 : ¬ P 0 := fun h => by have := (hP _ h).1; omega
  have hP0' : ¬ P' 0 := by rw [hP']; rintro (h | h); exacts [hP0 h, by omega]
  by_cases hkc : c < 2 * k + 1
  · obtain ⟨h1, h2⟩ := gate_only (P' := P') hb ht hk hkm hP hP0 hkc hl hPk hP'
    have h3 : Agree c (lvl c b t P' P) (lvl c b t P' P') := by
      intro j hj hj'
      unfold lvl
      by_cases e : j = c + 1
      · rw [if_pos e, if_pos e]
      · rw [if_neg e, if_neg e]
        have : (P' (j / 2) ∧ j % 2 = 1 ∧ Full c b (j - 1)) ↔ (P (j / 2) ∧ j % 2 = 1 ∧ Full c b (j - 1)) := by
          rw [hP']
          constructor
          · rintro ⟨h4 | h4, h5, h6⟩
            · exact ⟨h4, h5, h6⟩
            · omega
          · rintro ⟨h4, h5, h6⟩
            exact ⟨.inl h4, h5, h6⟩
        simp only [this]
    constructor
    · rw [forward, if_pos hkc]
      intro j hj hj'
      rw [← h3 j hj hj']
      exact h1 j hj hj'
    · rw [backward, if_pos hkc]
      intro j hj hj'
      rw [← h2 j hj hj']
      exact act_congr (ctl := 2 * k) (tgt := k) (fun i hi hi' => (h3 i hi hi').symm) (by omega) (by omega)
        (by omega) (by omega) j hj hj'
  · obtain ⟨h1, h2⟩ := gate_sibling (S' := P') hb ht hk hkm hP hP0 (by omega) hl hPk hP'
    obtain ⟨h3, h4⟩ := gate_parent (P' := P') (S := P') hb ht hk hkm hP hP0' (by omega) hr ((hP' k).2 (.inr rfl)) hPk hP'
    constructor
    · rw [forward, if_neg hkc]
      intro j hj hj'
      rw [← h3 j hj hj']
      exact act_congr (ctl := 2 * k + 1) (tgt := k) h1 (by omega) (by omega) (by omega) (by omega) j hj hj'
    · rw [backward, if_neg hkc]
      intro j hj hj'
      rw [← h2 j hj hj']
      exact act_congr (ctl := 2 * k) (tgt := 2 * k + 1) h4 (by omega) (by omega) (by omega) (by omega) j hj hj'

end

/-! ### Sequences of nodes -/

/-- Control and target are nodes of the circuit. -/
def InTree (c : Nat) (g : Nat × Nat × Int) : Prop :=
  1 ≤ g.1 ∧ g.1 ≤ c + 1 ∧ 1 ≤ g.2.1 ∧ g.2.1 ≤ c + 1 ∧ g.1 ≠ g.2.1

theorem acts_congr {c : Nat} {gs : List (Nat × Nat × Int)} (hg : ∀ g ∈ gs, InTree c g) {f g : Nat → Nat}
    (h : Agree c f g) : Agree c (acts c gs f) (acts c gs g) := by
  induction gs generalizing f g with
  | nil => exact h
  | cons x gs ih =>
    obtain ⟨h1, h2, h3, h4, _⟩ := hg x (by simp)
    exact ih (fun g hg' => hg g (by simp [hg'])) (act_congr h h1 h2 h3 h4)

theorem acts_append (c : Nat) (gs hs : List (Nat × Nat × Int)) (f : Nat → Nat) :
    acts c (gs ++ hs) f = acts c hs (acts c gs f) := by
  simp [acts]

theorem forward_inTree {c k : Nat} (hk : 1 ≤ k) (hkm : k ≤ c / 2) : ∀ g ∈ forward c k, InTree c g := by
  intro g hg
  unfold forward at hg
  split at hg
  · simp only [List.mem_singleton] at hg
    subst hg
    exact ⟨by simp only; omega, by simp only; omega, by simp only; omega, by simp only; omega, by simp only; omega⟩
  · simp only [List.mem_cons, List.not_mem_nil, or_false] at hg
    rcases hg with rfl | rfl <;>
    exact ⟨by simp only; omega, by simp only; omega, by simp only; omega, by simp only; omega, by simp only; omega⟩

theorem backward_inTree {c k : Nat} (hk : 1 ≤ k) (hkm : k ≤ c / 2) : ∀ g ∈ backward c k, InTree c g := by
  intro g hg
  unfold backward at hg
  split at hg
  · simp only [List.mem_singleton] at hg
    subst hg
    exact ⟨by simp only; omega, by simp only; omega, by simp only; omega, by simp only; omega, by simp only; omega⟩
  · simp only [List.mem_cons, List.not_mem_nil, or_false] at hg
    rcases hg with rfl | rfl <;>
    exact ⟨by simp only; omega, by simp only; omega, by simp only; omega, by simp only; omega, by simp only; omega⟩

theorem Agree.trans {c : Nat} {f g h : Nat → Nat} (h1 : Agree c f g) (h2 : Agree c g h) : Agree c f h :=
  fun k hk hk' => (h1 k hk hk').trans (h2 k hk hk')

theorem lvl_congr {c t : Nat} {b : Nat → Nat} {P P' : Nat → Prop} (h : ∀ x, P x ↔ P' x) :
    lvl c b t P P = lvl c b t P' P' := by
  have : P = P' := funext fun x => propext (h x)
  rw [this]

section
variable {c t : Nat} {b : Nat → Nat} (hb : ∀ k, b k ≤ 1) (ht : t ≤ 1)
include hb ht

/-- A level forwards. -/
theorem forward_list (L : List Nat) {P : Nat → Prop} (hP : ∀ k, P k → 1 ≤ k ∧ k ≤ c / 2)
    (hL : ∀ k ∈ L, 1 ≤ k ∧ k ≤ c / 2 ∧ ¬ P k ∧ (2 * k ≤ c / 2 → P (2 * k)) ∧ (2 * k + 1 ≤ c / 2 → P (2 * k + 1)))
    (hn : L.Nodup) :
    Agree c (acts c (L.flatMap (forward c)) (lvl c b t P P))
      (lvl c b t (fun x => P x ∨ x ∈ L) (fun x => P x ∨ x ∈ L)) := by
  induction L generalizing P with
  | nil =>
    intro k _ _
    exact congrFun (lvl_congr (fun x => by simp)) k
  | cons k L ih =>
    obtain ⟨h1, h2, h3, h4, h5⟩ := hL k (by simp)
    rw [List.nodup_cons] at hn
    have hP' : ∀ x, P x ∨ x = k → 1 ≤ x ∧ x ≤ c / 2 := by
      rintro x (h | rfl)
      · exact hP x h
      · exact ⟨h1, h2⟩
    have e1 := (node_gates (P' := fun x => P x ∨ x = k) hb ht h1 h2 hP h4 h5 h3 (fun x => Iff.rfl)).1
    have e2 := ih (P := fun x => P x ∨ x = k) hP' (by
      intro j hj
      obtain ⟨g1, g2, g3, g4, g5⟩ := hL j (by simp [hj])
      refine ⟨g1, g2, ?_, fun h => .inl (g4 h), fun h => .inl (g5 h)⟩
      rintro (h | rfl)
      · exact g3 h
      · exact hn.1 hj) hn.2
    rw [List.flatMap_cons, acts_append]
    refine (acts_congr ?_ e1).trans (e2.trans ?_)
    · intro g hg
      obtain ⟨j, hj, hg⟩ := List.mem_flatMap.1 hg
      obtain ⟨g1, g2, -⟩ := hL j (by simp [hj])
      exact forward_inTree g1 g2 g hg
    · intro j _ _
      exact congrFun (lvl_congr (fun x => by simp only [List.mem_cons, or_assoc])) j

/-- A level backwards (in the same order of nodes). -/
theorem backward_list (L : List Nat) {P : Nat → Prop} (hP : ∀ k, P k → 1 ≤ k ∧ k ≤ c / 2)
    (hL : ∀ k ∈ L, P k ∧ (2 * k ≤ c / 2 → P (2 * k) ∧ 2 * k ∉ L) ∧
      (2 * k + 1 ≤ c / 2 → P (2 * k + 1) ∧ 2 * k + 1 ∉ L)) (hn : L.Nodup) :
    Agree c (acts c (L.flatMap (backward c)) (lvl c b t P P))
      (lvl c b t (fun x => P x ∧ x ∉ L) (fun x => P x ∧ x ∉ L)) := by
  induction L generalizing P with
  | nil =>
    intro k _ _
    exact congrFun (lvl_congr (fun x => by simp)) k
  | cons k L ih =>
    obtain ⟨h3, h4, h5⟩ := hL k (by simp)
    obtain ⟨h1, h2⟩ := hP k h3
    rw [List.nodup_cons] at hn
    have e1 := (node_gates (P := fun x => P x ∧ x ≠ k) (P' := P) hb ht h1 h2 (fun x h => hP x h.1)
      (fun h => ⟨(h4 h).1, by omega⟩) (fun h => ⟨(h5 h).1, by omega⟩) (fun h => h.2 rfl) (fun x => by
        by_cases e : x = k
        · subst e; simp [h3]
        · simp [e])).2
    have e2 := ih (P := fun x => P x ∧ x ≠ k) (fun x h => hP x h.1) (by
      intro j hj
      obtain ⟨g3, g4, g5⟩ := hL j (by simp [hj])
      refine ⟨⟨g3, ?_⟩, fun h => ?_, fun h => ?_⟩
      · rintro rfl; exact hn.1 hj
      · obtain ⟨q1, q2⟩ := g4 h
        rw [List.mem_cons, not_or] at q2
        exact ⟨⟨q1, q2.1⟩, q2.2⟩
      · obtain ⟨q1, q2⟩ := g5 h
        rw [List.mem_cons, not_or] at q2
        exact ⟨⟨q1, q2.1⟩, q2.2⟩) hn.2
    rw [List.flatMap_cons, acts_append]
    refine (acts_congr ?_ e1).trans (e2.trans ?_)
    · intro g hg
      obtain ⟨j, hj, hg⟩ := List.mem_flatMap.1 hg
      obtain ⟨g1, g2⟩ := hP j (hL j (by simp [hj])).1
      exact backward_inTree g1 g2 g hg
    · intro j _ _
      exact congrFun (lvl_congr (fun x => by simp only [List.mem_cons, not_or, and_assoc, ne_eq])) j

end

/-- The nodes on level `i`. -/
def onLevel (c i : Nat) : List Nat := (List.range' 1 (c / 2)).filter fun k => decide (lev c k = i)

theorem mem_onLevel {c i k : Nat} : k ∈ onLevel c i ↔ 1 ≤ k ∧ k ≤ c / 2 ∧ lev c k = i := by
  unfold onLevel
  rw [List.mem_filter, List.mem_range'_1, decide_eq_true_eq]
  omega

theorem nodup_onLevel (c i : Nat) : (onLevel c i).Nodup := List.Nodup.filter _ List.nodup_range'

section
variable {c t : Nat} {b : Nat → Nat} (hc : 2 ≤ c) (hb : ∀ k, b k ≤ 1) (ht : t ≤ 1)
include hc hb ht

theorem forward_levels (i : Nat) :
    Agree c (acts c ((List.range i).flatMap fun i => (onLevel c i).flatMap (forward c))
        (lvl c b t (fun _ => False) (fun _ => False)))
      (lvl c b t (fun k => 1 ≤ k ∧ k ≤ c / 2 ∧ lev c k < i) (fun k => 1 ≤ k ∧ k ≤ c / 2 ∧ lev c k < i)) := by
  induction i with
  | zero =>
    intro k _ _
    simp only [List.range_zero, List.reverse_nil, List.flatMap_nil, acts, List.foldl_nil]
    exact congrFun (lvl_congr (fun x => by simp)) k
  | succ i ih =>
    rw [List.range_succ, List.flatMap_append, acts_append]
    have e2 := forward_list hb ht (onLevel c i) (P := fun k => 1 ≤ k ∧ k ≤ c / 2 ∧ lev c k < i)
      (fun k h => ⟨h.1, h.2.1⟩) (by
        intro k hk
        obtain ⟨h1, h2, h3⟩ := mem_onLevel.1 hk
        refine ⟨h1, h2, by omega, fun h => ?_, fun h => ?_⟩
        · have := lev_child hc h1 (.inl rfl) h
          exact ⟨by omega, h, by omega⟩
        · have := lev_child hc h1 (.inr rfl) h
          exact ⟨by omega, h, by omega⟩) (nodup_onLevel c i)
    simp only [List.flatMap_cons, List.flatMap_nil, List.append_nil]
    refine (acts_congr ?_ ih).trans (e2.trans ?_)
    · intro g hg
      obtain ⟨j, hj, hg⟩ := List.mem_flatMap.1 hg
      obtain ⟨g1, g2, -⟩ := mem_onLevel.1 hj
      exact forward_inTree g1 g2 g hg
    · intro k _ _
      exact congrFun (lvl_congr (fun x => by rw [mem_onLevel]; omega)) k

theorem backward_levels (i : Nat) :
    Agree c (acts c ((List.range i).reverse.flatMap fun i => (onLevel c i).flatMap (backward c))
        (lvl c b t (fun k => 1 ≤ k ∧ k ≤ c / 2 ∧ lev c k < i) (fun k => 1 ≤ k ∧ k ≤ c / 2 ∧ lev c k < i)))
      (lvl c b t (fun _ => False) (fun _ => False)) := by
  induction i with
  | zero =>
    intro k _ _
    simp only [List.range_zero, List.reverse_nil, List.flatMap_nil, acts, List.foldl_nil]
    exact congrFun (lvl_congr (fun x => by simp)) k
  | succ i ih =>
    rw [List.range_succ, List.reverse_append, List.flatMap_append, acts_append]
    have e2 := backward_list hb ht (onLevel c i) (P := fun k => 1 ≤ k ∧ k ≤ c / 2 ∧ lev c k < i + 1)
      (fun k h => ⟨h.1, h.2.1⟩) (by
        intro k hk
        obtain ⟨h1, h2, h3⟩ := mem_onLevel.1 hk
        refine ⟨by omega, fun h => ?_, fun h => ?_⟩
        · have := lev_child hc h1 (.inl rfl) h
          rw [mem_onLevel]
          exact ⟨⟨by omega, h, by omega⟩, by omega⟩
        · have := lev_child hc h1 (.inr rfl) h
          rw [mem_onLevel]
          exact ⟨⟨by omega, h, by omega⟩, by omega⟩) (nodup_onLevel c i)
    simp only [List.reverse_cons, List.reverse_nil, List.nil_append, List.flatMap_cons, List.flatMap_nil, List.append_nil]
    refine (acts_congr ?_ (e2.trans ?_)).trans ih
    · intro g hg
      obtain ⟨l, hl, hg⟩ := List.mem_flatMap.1 hg
      obtain ⟨j, hj, hg⟩ := List.mem_flatMap.1 hg
      obtain ⟨g1, g2, -⟩ := mem_onLevel.1 hj
      exact backward_inTree g1 g2 g hg
    · intro k _ _
      exact congrFun (lvl_congr (fun x => by rw [mem_onLevel]; omega)) k

omit ht in
/-- The gate on the target. -/
theorem gate_target :
    Agree c (act c 1 (c + 1) 1 (lvl c b t (fun k => 1 ≤ k ∧ k ≤ c / 2) (fun k => 1 ≤ k ∧ k ≤ c / 2)))
      (lvl c b (if Full c b 1 then (t + 1) % 2 else t) (fun k => 1 ≤ k ∧ k ≤ c / 2) (fun k => 1 ≤ k ∧ k ≤ c / 2)) := by
  have hb1 := hb 1
  have htop : lvl c b t (fun k => 1 ≤ k ∧ k ≤ c / 2) (fun k => 1 ≤ k ∧ k ≤ c / 2) 1 + 1 = dim c 1 ↔ Full c b 1 := by
    rw [full_iff (show 1 ≤ c by omega)]
    have e : dim c 1 = 3 := by rw [dim, if_neg (by omega), if_pos rfl]
    rw [e, lvl, if_neg (show ¬ 1 = c + 1 by omega)]
    rw [if_neg (show ¬ ((1 ≤ 1 / 2 ∧ 1 / 2 ≤ c / 2) ∧ 1 % 2 = 1 ∧ Full c b (1 - 1)) by omega)]
    by_cases h : Full c b (2 * 1) ∧ Full c b (2 * 1 + 1)
    · rw [if_pos ⟨by omega, h⟩]
      simp only [h, and_true]
      omega
    · rw [if_neg (fun h' => h h'.2)]
      simp only [h, and_false, iff_false]
      omega
  intro k hk hk'
  unfold act
  by_cases h : Full c b 1
  · by_cases e : k = c + 1
    · rw [if_pos ⟨e, htop.2 h⟩]
      have e2 : dim c (c + 1) = 2 := by rw [dim, if_pos rfl]
      rw [e2, e, lvl, lvl, if_pos rfl, if_pos rfl, if_pos h]
      omega
    · rw [if_neg (fun h => e h.1), lvl, lvl, if_neg e, if_neg e]
  · rw [if_neg (fun h' => h (htop.1 h'.2)), if_neg h]

/-- The whole network leaves the controls as they were and flips the target iff all controls are 1. -/
theorem network :
    Agree c (acts c (((List.range (Nat.log2 c)).flatMap fun i => (onLevel c i).flatMap (forward c)) ++
        [(1, c + 1, 1)] ++ ((List.range (Nat.log2 c)).reverse.flatMap fun i => (onLevel c i).flatMap (backward c)))
        (fun k => if k = c + 1 then t else b k))
      (fun k => if k = c + 1 then (if Full c b 1 then (t + 1) % 2 else t) else b k) := by
  have hall : ∀ x, (1 ≤ x ∧ x ≤ c / 2 ∧ lev c x < Nat.log2 c) ↔ (1 ≤ x ∧ x ≤ c / 2) := by
    intro x
    have := lev_lt (k := x) hc
    omega
  have h0 : ∀ t, lvl c b t (fun _ => False) (fun _ => False) = fun k => if k = c + 1 then t else b k := by
    intro t
    funext k
    simp [lvl]
  have e1 := forward_levels hc hb ht (Nat.log2 c)
  have e2 := gate_target (t := t) hc hb
  have e3 := backward_levels (t := if Full c b 1 then (t + 1) % 2 else t) hc hb (by split <;> omega) (Nat.log2 c)
  rw [h0, lvl_congr hall] at e1
  rw [h0, lvl_congr hall] at e3
  rw [acts_append, acts_append]
  refine Agree.trans (acts_congr ?_ (Agree.trans ?_ e2)) e3
  · intro g hg
    obtain ⟨l, hl, hg⟩ := List.mem_flatMap.1 hg
    obtain ⟨j, hj, hg⟩ := List.mem_flatMap.1 hg
    obtain ⟨g1, g2, -⟩ := mem_onLevel.1 hj
    exact backward_inTree g1 g2 g hg
  · exact act_congr (ctl := 1) (tgt := c + 1) e1 (by omega) (by omega) (by omega) (by omega)

end

end QuDiet.Tree
