import Verif.Lemmas.Radix
import Verif.Circuit

/-! # Kronecker products of blocks act blockwise on states -/

namespace QuDiet
open Spec

variable {R : Type}

/-- Equal on all level lists that fit `dims`. -/
def EqOn (dims : List Nat) (ψ φ : State R) : Prop := ∀ s, Fits dims s → ψ s = φ s

theorem EqOn.rfl' {dims : List Nat} {ψ : State R} : EqOn dims ψ ψ := fun _ _ => rfl
theorem EqOn.symm' {dims : List Nat} {ψ φ : State R} (h : EqOn dims ψ φ) : EqOn dims φ ψ :=
  fun s hs => (h s hs).symm
theorem EqOn.trans' {dims : List Nat} {ψ φ χ : State R} (h : EqOn dims ψ φ) (h' : EqOn dims φ χ) :
    EqOn dims ψ χ := fun s hs => (h s hs).trans (h' s hs)

theorem outcome_congr [Zero R] [DecidableEq R] {dims : List Nat} {ψ φ : State R}
    (h : EqOn dims ψ φ) : outcome dims ψ = outcome dims φ := by
  unfold outcome
  have hf : (states dims).filter (fun s => ψ s ≠ 0) = (states dims).filter (fun s => φ s ≠ 0) := by
    apply List.filter_congr
    intro s hs
    rw [h s (mem_states.1 hs)]
  rw [hf]
  apply List.map_congr_left
  intro s hs
  rw [h s (mem_states.1 (List.mem_filter.1 hs).1)]

variable [CommRing R]

/-- `A` is the column of amplitudes of `ψ`. -/
def IsVec (dims : List Nat) (A : Mat R) (ψ : State R) : Prop :=
  A.rows = dims.prod ∧ A.cols = 1 ∧ ∀ s, Fits dims s → A.e (value dims s) 0 = ψ s

/-- `A` has entry `K s t` in the row of `s` and the column of `t`. -/
def HasKernel (dims : List Nat) (A : Mat R) (K : List Nat → List Nat → R) : Prop :=
  A.rows = dims.prod ∧ A.cols = dims.prod ∧
    ∀ s t, Fits dims s → Fits dims t → A.e (value dims s) (value dims t) = K s t

/-- Multiplying by `A` is applying `F`. -/
def ActsAs (dims : List Nat) (A : Mat R) (F : State R → State R) : Prop :=
  A.rows = dims.prod ∧ A.cols = dims.prod ∧ ∀ ψ s, Fits dims s →
    ((states dims).map fun t => A.e (value dims s) (value dims t) * ψ t).sum = F ψ s

theorem ActsAs.congr {dims : List Nat} {A : Mat R} {F G : State R → State R} (h : ActsAs dims A F)
    (hFG : ∀ ψ, EqOn dims (F ψ) (G ψ)) : ActsAs dims A G :=
  ⟨h.1, h.2.1, fun ψ s hs => (h.2.2 ψ s hs).trans (hFG ψ s hs)⟩

theorem ActsAs.eqOn {dims : List Nat} {A : Mat R} {F : State R → State R} (h : ActsAs dims A F)
    {ψ φ : State R} (he : EqOn dims ψ φ) : EqOn dims (F ψ) (F φ) := by
  intro s hs
  rw [← h.2.2 ψ s hs, ← h.2.2 φ s hs]
  apply map_congr_sum
  intro t ht
  rw [he t (mem_states.1 ht)]

theorem dot_eq {A B : Mat R} (h : A.cols = B.rows) :
    A.dot B = .ok
      { rows := A.rows, cols := B.cols,
        e := fun i j => ((List.range A.cols).map fun k => A.e i k * B.e k j).sum } := by
  rw [Mat.dot, if_pos h]

theorem ActsAs.dot {dims : List Nat} {A B : Mat R} {F G : State R → State R}
    (hA : ActsAs dims A F) (hB : ActsAs dims B G) :
    ∃ C, A.dot B = .ok C ∧ ActsAs dims C (fun ψ => F (G ψ)) := by
  obtain ⟨a1, a2, a3⟩ := hA
  obtain ⟨b1, b2, b3⟩ := hB
  refine ⟨_, dot_eq (a2.trans b1.symm), a1, b2, ?_⟩
  intro ψ s hs
  simp only
  rw [a2]
  simp only [sum_range_prod]
  rw [← a3 (G ψ) s hs]
  simp only [← List.sum_map_mul_right]
  rw [sum_comm]
  apply map_congr_sum
  intro u hu
  rw [← b3 ψ u (mem_states.1 hu), ← List.sum_map_mul_left]
  apply map_congr_sum
  intro t _
  ring

theorem ActsAs.dotVec {dims : List Nat} {A v : Mat R} {F : State R → State R} {ψ : State R}
    (hA : ActsAs dims A F) (hv : IsVec dims v ψ) :
    ∃ w, A.dot v = .ok w ∧ IsVec dims w (F ψ) := by
  obtain ⟨a1, a2, a3⟩ := hA
  obtain ⟨b1, b2, b3⟩ := hv
  refine ⟨_, dot_eq (a2.trans b1.symm), a1, b2, ?_⟩
  intro s hs
  simp only
  rw [a2, sum_range_prod, ← a3 ψ s hs]
  apply map_congr_sum
  intro t ht
  rw [b3 t (mem_states.1 ht)]

/-! ### Kronecker products -/

theorem HasKernel.kron {a b : List Nat} {A B : Mat R} {K L : List Nat → List Nat → R}
    (hA : HasKernel a A K) (hB : HasKernel b B L) :
    HasKernel (a ++ b) (A.kron B) fun s t =>
      K (s.take a.length) (t.take a.length) * L (s.drop a.length) (t.drop a.length) := by
  obtain ⟨a1, a2, a3⟩ := hA
  obtain ⟨b1, b2, b3⟩ := hB
  refine ⟨by simp [Mat.kron, a1, b1], by simp [Mat.kron, a2, b2], ?_⟩
  intro s t hs ht
  obtain ⟨hs1, hs2⟩ := hs.split
  obtain ⟨ht1, ht2⟩ := ht.split
  simp only [Mat.kron, b1, b2]
  conv_lhs => rw [← List.take_append_drop a.length s, ← List.take_append_drop a.length t]
  rw [value_append_div hs1.1 hs2, value_append_div ht1.1 ht2, value_append_mod hs1.1 hs2,
    value_append_mod ht1.1 ht2, a3 _ _ hs1 ht1, b3 _ _ hs2 ht2]

theorem IsVec.kron {a b : List Nat} {A B : Mat R} {ψ φ : State R}
    (hA : IsVec a A ψ) (hB : IsVec b B φ) :
    IsVec (a ++ b) (A.kron B) fun s => ψ (s.take a.length) * φ (s.drop a.length) := by
  obtain ⟨a1, a2, a3⟩ := hA
  obtain ⟨b1, b2, b3⟩ := hB
  refine ⟨by simp [Mat.kron, a1, b1], by simp [Mat.kron, a2, b2], ?_⟩
  intro s hs
  obtain ⟨hs1, hs2⟩ := hs.split
  simp only [Mat.kron, b1, b2]
  conv_lhs => rw [← List.take_append_drop a.length s]
  rw [value_append_div hs1.1 hs2, value_append_mod hs1.1 hs2]
  simp [a3 _ hs1, b3 _ hs2]

/-- A block: the dimensions of the registers it covers and its matrix entries. -/
abbrev Block (R : Type) := List Nat × (Nat → Nat → R)

/-- The dimensions covered by a list of blocks. -/
def blockDims (bs : List (Block R)) : List Nat := bs.flatMap (·.1)

@[simp] theorem blockDims_nil : blockDims ([] : List (Block R)) = [] := rfl
@[simp] theorem blockDims_cons (b : Block R) (bs : List (Block R)) :
    blockDims (b :: bs) = b.1 ++ blockDims bs := rfl
@[simp] theorem blockDims_append (as bs : List (Block R)) :
    blockDims (as ++ bs) = blockDims as ++ blockDims bs := by simp [blockDims]

/-- Entry of the Kronecker product of the blocks. -/
def blockEntry : List (Block R) → List Nat → List Nat → R
  | [], _, _ => 1
  | (ds, U) :: bs, s, t =>
    U (value ds (s.take ds.length)) (value ds (t.take ds.length))
      * blockEntry bs (s.drop ds.length) (t.drop ds.length)

/-- The operator given by a list of blocks, peeled block by block. -/
def blockAct : List (Block R) → State R → State R
  | [], ψ, s => ψ s
  | (ds, U) :: bs, ψ, s =>
    ((states ds).map fun m =>
      U (value ds (s.take ds.length)) (value ds m)
        * blockAct bs (fun r => ψ (m ++ r)) (s.drop ds.length)).sum

theorem blockEntry_sum (bs : List (Block R)) (ψ : State R) (s : List Nat)
    (hs : Fits (blockDims bs) s) :
    ((states (blockDims bs)).map fun t => blockEntry bs s t * ψ t).sum = blockAct bs ψ s := by
  induction bs generalizing ψ s with
  | nil =>
    have := fits_nil.1 hs
    subst this
    simp [states, blockEntry, blockAct]
  | cons b bs ih =>
    obtain ⟨ds, U⟩ := b
    obtain ⟨hs1, hs2⟩ := hs.split
    simp only [blockDims_cons, sum_states_append]
    simp only [blockAct]
    apply map_congr_sum
    intro m hm
    rw [← ih _ _ hs2, ← List.sum_map_mul_left]
    apply map_congr_sum
    intro t _
    have hl := length_of_mem hm
    simp only [blockEntry]
    rw [List.take_left' hl, List.drop_left' hl]
    ring

/-- The matrix of `g` is the block `b`. -/
def GateBlock [StarRing R] [DecidableEq R] [UnitaryCheck R] (N : Numerics R) (g : GateObj R) (b : Block R) : Prop :=
  ∃ M : Mat R, g.unitary N (numpyBackend R) = .ok M ∧ M.rows = b.1.prod ∧ M.cols = b.1.prod ∧
    ∀ i < b.1.prod, ∀ j < b.1.prod, M.e i j = b.2 i j

section
variable [StarRing R] [DecidableEq R] [UnitaryCheck R]

theorem kron_foldlM {N : Numerics R} {m : List (GateObj R)} {bs : List (Block R)}
    (h : List.Forall₂ (GateBlock N) m bs) (a : List Nat) (A : Mat R) (K : List Nat → List Nat → R)
    (hA : HasKernel a A K) :
    ∃ B, m.foldlM (m := PyM) (fun (acc : Mat R) g => do
        .ok ((numpyBackend R).kron acc (← g.unitary N (numpyBackend R)))) A = .ok B ∧
      HasKernel (a ++ blockDims bs) B fun s t =>
        K (s.take a.length) (t.take a.length) * blockEntry bs (s.drop a.length) (t.drop a.length) := by
  induction h generalizing a A K with
  | nil =>
    refine ⟨A, rfl, ?_⟩
    obtain ⟨h1, h2, h3⟩ := hA
    refine ⟨by simp [h1], by simp [h2], ?_⟩
    intro s t hs ht
    simp only [blockDims_nil, List.append_nil] at hs ht ⊢
    rw [h3 s t hs ht, List.take_of_length_le (by rw [hs.1]), List.take_of_length_le (by rw [ht.1])]
    simp [blockEntry]
  | @cons g b m bs hg _ ih =>
    obtain ⟨ds, U⟩ := b
    obtain ⟨M, hM, hr, hc, he⟩ := hg
    have hk : HasKernel ds M fun s t => U (value ds s) (value ds t) :=
      ⟨hr, hc, fun s t hs ht => he _ (value_lt hs) _ (value_lt ht)⟩
    obtain ⟨B, hB, hB1, hB2, hB3⟩ := ih _ _ _ (hA.kron hk)
    refine ⟨B, ?_, ?_⟩
    · rw [List.foldlM_cons, hM]
      exact hB
    · refine ⟨by rw [hB1]; simp, by rw [hB2]; simp, ?_⟩
      intro s t hs ht
      have := hB3 s t (by simpa using hs) (by simpa using ht)
      simp only [blockDims_cons]
      rw [← List.append_assoc, this]
      simp only [blockEntry, List.length_append, List.take_take, List.drop_drop,
        Nat.min_eq_left (Nat.le_add_right _ _)]
      rw [List.drop_take, List.drop_take, Nat.add_sub_cancel_left]
      ring

theorem momentExec_ok {N : Numerics R} {m : List (GateObj R)} {bs : List (Block R)}
    (h : List.Forall₂ (GateBlock N) m bs) (hne : m ≠ []) :
    ∃ A : Mat R, momentExec N (numpyBackend R) m = .ok A ∧ ActsAs (blockDims bs) A (blockAct bs) := by
  cases h with
  | nil => exact absurd rfl hne
  | @cons g b m bs hg ht =>
    obtain ⟨ds, U⟩ := b
    obtain ⟨M, hM, hr, hc, he⟩ := hg
    have hk : HasKernel ds M fun s t => U (value ds s) (value ds t) :=
      ⟨hr, hc, fun s t hs ht => he _ (value_lt hs) _ (value_lt ht)⟩
    obtain ⟨B, hB, hB1, hB2, hB3⟩ := kron_foldlM ht ds M _ hk
    refine ⟨B, ?_, hB1, hB2, ?_⟩
    · rw [momentExec, hM]
      exact hB
    · intro ψ s hs
      rw [← blockEntry_sum _ _ _ hs]
      apply map_congr_sum
      intro t ht
      rw [blockDims_cons] at *
      rw [hB3 s t hs (mem_states.1 ht)]
      rfl

end

/-! ### Actions of particular layers -/

/-- Entries of the identity. -/
def idEntry : Nat → Nat → R := fun i j => if i = j then 1 else 0

theorem blockAct_ident (d : Nat) (bs : List (Block R)) (ψ : State R) (k : Nat) (s : List Nat)
    (hk : k < d) :
    blockAct (([d], idEntry) :: bs) ψ (k :: s) = blockAct bs (fun r => ψ (k :: r)) s := by
  simp only [blockAct, states_singleton, List.map_map, Function.comp_def, idEntry]
  simp only [List.length_singleton, List.take_succ_cons, List.take_zero, value_singleton,
    List.drop_succ_cons, List.drop_zero, ite_mul, one_mul, zero_mul, List.singleton_append]
  exact sum_ite_eq (List.range d) List.nodup_range k (by simpa using hk)
    (fun j => blockAct bs (fun r => ψ (j :: r)) s)

theorem blockAct_congr (bs : List (Block R)) {ψ φ : State R} (h : EqOn (blockDims bs) ψ φ) :
    EqOn (blockDims bs) (blockAct bs ψ) (blockAct bs φ) := by
  intro s hs
  rw [← blockEntry_sum _ _ _ hs, ← blockEntry_sum _ _ _ hs]
  apply map_congr_sum
  intro t ht
  rw [h t (mem_states.1 ht)]

/-- The blocks of identities on registers of dimensions `ds`. -/
def idBlocks (ds : List Nat) : List (Block R) := ds.map fun d => ([d], idEntry)

@[simp] theorem blockDims_idBlocks (ds : List Nat) : blockDims (idBlocks (R := R) ds) = ds := by
  induction ds with
  | nil => rfl
  | cons d ds ih =>
    rw [idBlocks, List.map_cons, blockDims_cons]
    change [d] ++ blockDims (idBlocks ds) = _
    rw [ih]; rfl

theorem blockAct_idBlocks_append (ds : List Nat) (bs : List (Block R)) (ψ : State R) (s t : List Nat)
    (hs : Fits ds s) :
    blockAct (idBlocks ds ++ bs) ψ (s ++ t) = blockAct bs (fun r => ψ (s ++ r)) t := by
  induction ds generalizing s ψ with
  | nil =>
    rw [fits_nil.1 hs]
    rfl
  | cons d ds ih =>
    obtain ⟨k, s, rfl, hk, hs⟩ := fits_cons.1 hs
    rw [idBlocks, List.map_cons, List.cons_append, List.cons_append, blockAct_ident _ _ _ _ _ hk]
    exact ih (fun r => ψ (k :: r)) s hs

theorem blockAct_idBlocks (ds : List Nat) (ψ : State R) :
    EqOn ds (blockAct (idBlocks ds) ψ) ψ := by
  intro s hs
  have := blockAct_idBlocks_append ds [] ψ s [] hs
  simpa [blockAct] using this

/-- A layer with one proper block applies that block. -/
theorem blockAct_single (pre ds post : List Nat) (U : Nat → Nat → R) (ψ : State R) :
    EqOn (pre ++ ds ++ post)
      (blockAct (idBlocks pre ++ (ds, U) :: idBlocks post) ψ)
      (onBlock (pre ++ ds ++ post) pre.length ds.length U ψ) := by
  intro s hs
  obtain ⟨h12, h3⟩ := hs.split
  obtain ⟨h1, h2⟩ := h12.split
  have e1 : (s.take (pre ++ ds).length).take pre.length = s.take pre.length := by
    rw [List.take_take]; simp
  rw [e1] at h1
  have hlen := hs.1
  simp only [List.length_append] at hlen
  conv_lhs => rw [← List.take_append_drop pre.length s]
  rw [blockAct_idBlocks_append _ _ _ _ _ h1]
  simp only [blockAct, onBlock]
  have e2 : ((pre ++ ds ++ post).drop pre.length).take ds.length = ds := by
    rw [List.append_assoc, List.drop_left, List.take_left]
  rw [e2]
  apply map_congr_sum
  intro m hm
  congr 1
  rw [List.drop_drop]
  rw [blockAct_idBlocks post _ _ (by simpa using h3)]
  rw [List.append_assoc]

/-- Putting a gate in the place of an identity is applying it afterwards. -/
theorem blockAct_pack (b1 b2 : List (Block R)) (d : Nat) (G : Nat → Nat → R) (ψ : State R) :
    EqOn (blockDims b1 ++ d :: blockDims b2)
      (blockAct (b1 ++ ([d], G) :: b2) ψ)
      (onReg d (blockDims b1).length G (blockAct (b1 ++ ([d], idEntry) :: b2) ψ)) := by
  induction b1 generalizing ψ with
  | nil =>
    intro s hs
    obtain ⟨k, s, rfl, hk, hs⟩ := fits_cons.1 hs
    simp only [List.nil_append, onReg, blockDims_nil, List.length_nil, List.set_cons_zero]
    simp only [blockAct, states_singleton, List.map_map, Function.comp_def]
    simp only [List.length_singleton, List.take_succ_cons, List.take_zero, value_singleton,
      List.drop_succ_cons, List.drop_zero, List.singleton_append]
    apply map_congr_sum
    intro j hj
    have := blockAct_ident d b2 ψ j s (by simpa using hj)
    simp only [blockAct, states_singleton, List.map_map, Function.comp_def] at this
    simp only [List.length_singleton, List.take_succ_cons, List.take_zero, value_singleton,
      List.drop_succ_cons, List.drop_zero, List.singleton_append] at this
    rw [this]
    simp
  | cons b b1 ih =>
    obtain ⟨ds, U⟩ := b
    intro s hs
    have hs' : Fits (ds ++ (blockDims b1 ++ d :: blockDims b2)) s := by simpa using hs
    obtain ⟨h1, h2⟩ := hs'.split
    have hlen := hs'.1
    simp only [List.length_append] at hlen
    simp only [List.cons_append, blockAct, blockDims_cons, List.length_append, onReg]
    have hdrop : ∀ k, (s.set (ds.length + (blockDims b1).length) k).drop ds.length
        = (s.drop ds.length).set (blockDims b1).length k := by
      intro k
      rw [List.drop_set, if_neg (by omega), Nat.add_sub_cancel_left]
    have htake : ∀ k, (s.set (ds.length + (blockDims b1).length) k).take ds.length = s.take ds.length := by
      intro k
      rw [List.take_set, List.set_eq_of_length_le]
      simp
    simp only [hdrop, htake]
    have hget : s.getD (ds.length + (blockDims b1).length) 0
        = (s.drop ds.length).getD (blockDims b1).length 0 := by
      simp [List.getD_eq_getElem?_getD]
    rw [hget]
    simp only [← List.sum_map_mul_left]
    rw [sum_comm]
    apply map_congr_sum
    intro m hm
    rw [ih _ _ h2]
    simp only [onReg, ← List.sum_map_mul_left]
    apply map_congr_sum
    intro k _
    ring

theorem onBlock_one (dims : List Nat) (q : Nat) (hq : q < dims.length) (G : Nat → Nat → R)
    (ψ : State R) : EqOn dims (onBlock dims q 1 G ψ) (onReg dims[q] q G ψ) := by
  intro s hs
  have hq' : q < s.length := by rw [hs.1]; exact hq
  have e : (dims.drop q).take 1 = [dims[q]] := by
    rw [List.drop_eq_getElem_cons hq]; rfl
  have e' : (s.drop q).take 1 = [s[q]] := by
    rw [List.drop_eq_getElem_cons hq']; rfl
  simp only [onBlock, onReg, e, e', states_singleton, List.map_map, Function.comp_def, value_singleton]
  apply map_congr_sum
  intro k _
  have h1 : s.getD q 0 = s[q] := by simp [List.getD_eq_getElem?_getD, hq']
  rw [h1, List.set_eq_take_append_cons_drop, if_pos hq']
  simp

/-- Change the registers `lb, …, lb+len-1` by `g`. -/
def inBlock (lb len : Nat) (g : List Nat → List Nat) (t : List Nat) : List Nat :=
  t.take lb ++ g ((t.drop lb).take len) ++ t.drop (lb + len)

/-- A block matrix with a single one in every column moves basis states. -/
theorem onBlock_move (pre ds post : List Nat) (U : Nat → Nat → R) (g : List Nat → List Nat)
    (hg : ∀ m, Fits ds m → Fits ds (g m))
    (hU : ∀ a b, Fits ds a → Fits ds b → U (value ds a) (value ds b) = if g b = a then 1 else 0)
    (ψ : State R) :
    EqOn (pre ++ ds ++ post) (onBlock (pre ++ ds ++ post) pre.length ds.length U ψ)
      (move (pre ++ ds ++ post) (inBlock pre.length ds.length g) ψ) := by
  intro s hs
  obtain ⟨h12, h3⟩ := hs.split
  obtain ⟨h1, h2⟩ := h12.split
  obtain ⟨s1, s2, s3, rfl, f1, f2, f3⟩ : ∃ s1 s2 s3, s = s1 ++ s2 ++ s3 ∧ Fits pre s1 ∧ Fits ds s2 ∧ Fits post s3 := by
    refine ⟨_, _, _, ?_, h1, h2, h3⟩
    rw [List.take_append_drop, List.take_append_drop]
  simp only [onBlock, move]
  have e2 : ((pre ++ ds ++ post).drop pre.length).take ds.length = ds := by
    rw [List.append_assoc, List.drop_left, List.take_left]
  rw [e2, ← sum_ite_zero, sum_states_append, sum_states_append]
  have split : ∀ a b c : List Nat, a.length = pre.length → b.length = ds.length →
      (a ++ b ++ c).take pre.length = a ∧ ((a ++ b ++ c).drop pre.length).take ds.length = b ∧
      (a ++ b ++ c).drop (pre.length + ds.length) = c := by
    intro a b c ha hb
    refine ⟨?_, ?_, ?_⟩
    · rw [List.append_assoc, List.take_left' ha]
    · rw [List.append_assoc, List.drop_left' ha, List.take_left' hb]
    · rw [List.drop_left' (by simp [ha, hb])]
  obtain ⟨x1, x2, x3⟩ := split s1 s2 s3 f1.1 f2.1
  rw [x1, x2, x3]
  have key : ∀ t1 ∈ states pre, ((states ds).map fun m => ((states post).map fun t3 =>
      if inBlock pre.length ds.length g (t1 ++ m ++ t3) = s1 ++ s2 ++ s3 then ψ (t1 ++ m ++ t3) else 0).sum).sum
      = if s1 = t1 then ((states ds).map fun m => if g m = s2 then ψ (t1 ++ m ++ s3) else 0).sum else 0 := by
    intro t1 ht1
    have l1 := length_of_mem ht1
    have cond : ∀ m ∈ states ds, ∀ t3 ∈ states post,
        (inBlock pre.length ds.length g (t1 ++ m ++ t3) = s1 ++ s2 ++ s3) ↔ (s1 = t1 ∧ g m = s2 ∧ s3 = t3) := by
      intro m hm t3 _
      obtain ⟨y1, y2, y3⟩ := split t1 m t3 l1 (length_of_mem hm)
      rw [inBlock, y1, y2, y3]
      have lg : (g m).length = ds.length := (hg m (mem_states.1 hm)).1
      constructor
      · intro h
        have hh := List.append_inj h (by simp [l1, lg, f1.1, f2.1])
        have hh' := List.append_inj hh.1 (by simp [l1, f1.1])
        exact ⟨hh'.1.symm, hh'.2, hh.2.symm⟩
      · rintro ⟨rfl, rfl, rfl⟩; rfl
    by_cases h : s1 = t1
    · rw [if_pos h]
      apply map_congr_sum
      intro m hm
      by_cases h' : g m = s2
      · rw [if_pos h']
        rw [← sum_ite_eq (states post) (nodup_states _) s3 (mem_states.2 f3) (fun t3 => ψ (t1 ++ m ++ t3))]
        apply map_congr_sum
        intro t3 ht3
        have := cond m hm t3 ht3
        by_cases h'' : s3 = t3
        · rw [if_pos (this.2 ⟨h, h', h''⟩), if_pos h'']
        · rw [if_neg (fun hc => h'' (this.1 hc).2.2), if_neg h'']
      · rw [if_neg h']
        apply List.sum_eq_zero
        intro x hx
        obtain ⟨t3, ht3, rfl⟩ := List.mem_map.1 hx
        rw [if_neg (fun hc => h' ((cond m hm t3 ht3).1 hc).2.1)]
    · rw [if_neg h]
      apply List.sum_eq_zero
      intro x hx
      obtain ⟨m, hm, rfl⟩ := List.mem_map.1 hx
      apply List.sum_eq_zero
      intro x hx
      obtain ⟨t3, ht3, rfl⟩ := List.mem_map.1 hx
      rw [if_neg (fun hc => h ((cond m hm t3 ht3).1 hc).1)]
  rw [map_congr_sum key]
  rw [sum_ite_eq (states pre) (nodup_states _) s1 (mem_states.2 f1)
    (fun t1 => ((states ds).map fun m => if g m = s2 then ψ (t1 ++ m ++ s3) else 0).sum)]
  apply map_congr_sum
  intro m hm
  rw [hU s2 m f2 (mem_states.1 hm)]
  by_cases h : g m = s2 <;> simp [h]

end QuDiet
