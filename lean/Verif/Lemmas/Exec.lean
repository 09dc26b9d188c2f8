import Verif.Lemmas.Emit2

/-! # Executing the layers of a circuit -/

namespace QuDiet
open Spec

variable {R : Type} [CommRing R] [StarRing R] [DecidableEq R] [UnitaryCheck R]

/-! ### The preparation moment -/

theorem basis_append {a b a0 b0 s : List Nat} (ha : Fits a a0) (hb : Fits b b0) (hs : Fits (a ++ b) s) :
    (basis a0 (s.take a.length) : R) * basis b0 (s.drop a.length) = basis (a0 ++ b0) s := by
  unfold basis
  have hl : a0.length = a.length := ha.1
  by_cases h1 : s.take a.length = a0
  · by_cases h2 : s.drop a.length = b0
    · rw [if_pos h1, if_pos h2, if_pos (by rw [← h1, ← h2, List.take_append_drop]), one_mul]
    · rw [if_pos h1, if_neg h2, if_neg, mul_zero]
      rintro rfl
      apply h2
      rw [← hl, List.drop_left]
  · rw [if_neg h1, zero_mul, if_neg]
    rintro rfl
    apply h1
    rw [← hl, List.take_left]

/-- The operator prepares level `k` on a register of dimension `d`. -/
def Prepares (N : Numerics R) (g : GateObj R) (dk : Nat × Nat) : Prop :=
  dk.2 < dk.1 ∧ ∃ M : Mat R, g.unitary N (numpyBackend R) = .ok M ∧ IsVec [dk.1] M (basis [dk.2])

theorem prep_foldlM {N : Numerics R} {m : List (GateObj R)} {ps : List (Nat × Nat)}
    (h : List.Forall₂ (Prepares N) m ps) (a a0 : List Nat) (ha : Fits a a0) (A : Mat R)
    (hA : IsVec a A (basis a0)) :
    ∃ B, m.foldlM (m := PyM) (fun (acc : Mat R) g => do
        .ok ((numpyBackend R).kron acc (← g.unitary N (numpyBackend R)))) A = .ok B ∧
      Fits (a ++ ps.map Prod.fst) (a0 ++ ps.map Prod.snd) ∧
      IsVec (a ++ ps.map Prod.fst) B (basis (a0 ++ ps.map Prod.snd)) := by
  induction h generalizing a a0 A with
  | nil => exact ⟨A, rfl, by simpa using ha, by simpa using hA⟩
  | @cons g p m ps hg _ ih =>
    obtain ⟨d, k⟩ := p
    obtain ⟨hk, M, hM, hv⟩ := hg
    have hf1 : Fits [d] [k] := fits_singleton.2 ⟨k, rfl, hk⟩
    have hf : Fits (a ++ [d]) (a0 ++ [k]) := (fits_append ha.1).2 ⟨ha, hf1⟩
    have hv' : IsVec (a ++ [d]) (A.kron M) (basis (a0 ++ [k])) := by
      have := hA.kron hv
      refine ⟨this.1, this.2.1, fun s hs => ?_⟩
      rw [this.2.2 s hs]
      exact basis_append ha hf1 hs
    obtain ⟨B, hB, h1, h2⟩ := ih _ _ hf _ hv'
    refine ⟨B, ?_, by simpa using h1, by simpa using h2⟩
    rw [List.foldlM_cons, hM]
    exact hB

theorem prep_exec {N : Numerics R} {m : List (GateObj R)} {ps : List (Nat × Nat)}
    (h : List.Forall₂ (Prepares N) m ps) (hne : m ≠ []) :
    ∃ v : Mat R, momentExec N (numpyBackend R) m = .ok v ∧ Fits (ps.map Prod.fst) (ps.map Prod.snd) ∧
      IsVec (ps.map Prod.fst) v (basis (ps.map Prod.snd)) := by
  cases h with
  | nil => exact absurd rfl hne
  | @cons g p m ps hg ht =>
    obtain ⟨d, k⟩ := p
    obtain ⟨hk, M, hM, hv⟩ := hg
    have hf1 : Fits [d] [k] := fits_singleton.2 ⟨k, rfl, hk⟩
    obtain ⟨B, hB, h1, h2⟩ := prep_foldlM ht [d] [k] hf1 M hv
    refine ⟨B, ?_, h1, h2⟩
    rw [momentExec, hM]
    exact hB

/-! ### Good layers -/

theorem Layer.good {N : Numerics R} {dims : List Nat} {off : Nat} {m : List (GateObj R)}
    {bs : List (Option (Block R))} (h : Layer dims.length (Slot N dims) off m bs)
    (hs : none ∉ bs) :
    List.Forall₂ (GateBlock N) m (bs.filterMap id) ∧ blockDims (bs.filterMap id) = dims.drop off := by
  induction h with
  | nil => simp
  | @cons off k g b m bs hk hle hinit hcov hP rest ih =>
    cases b with
    | none => simp at hs
    | some b =>
      obtain ⟨h1, h2⟩ := ih (by simp at hs; exact hs)
      obtain ⟨hb1, hb2, _⟩ := hP
      have e : (some b :: bs).filterMap id = b :: bs.filterMap id := rfl
      rw [e]
      refine ⟨.cons hb2 h1, ?_⟩
      rw [blockDims_cons, h2, hb1, ← List.drop_drop, List.take_append_drop]

/-- The operator of a layer. -/
abbrev layerAct (bs : List (Option (Block R))) : State R → State R := blockAct (bs.filterMap id)

theorem Layer.exec {N : Numerics R} {dims : List Nat} {m : List (GateObj R)}
    {bs : List (Option (Block R))} (h : Layer dims.length (Slot N dims) 0 m bs)
    (hpos : 0 < dims.length) (hs : none ∉ bs) :
    ∃ A : Mat R, momentExec N (numpyBackend R) m = .ok A ∧ ActsAs dims A (layerAct bs) := by
  have hne : m ≠ [] := by
    rintro rfl
    generalize hz : 0 = z at h
    cases h
    omega
  obtain ⟨h1, h2⟩ := h.good hs
  obtain ⟨A, hA, hact⟩ := momentExec_ok h1 hne
  rw [h2] at hact
  exact ⟨A, hA, hact⟩

/-! ### Bad layers -/

/-- Raises, or yields a square matrix of at most (`strict`: less than) the given size. -/
def Small (x : PyM (Mat R)) (size : Nat) (strict : Prop) : Prop :=
  (∃ e, x = .error e) ∨ ∃ M, x = .ok M ∧ M.rows = M.cols ∧ M.rows ≤ size ∧ (strict → M.rows < size)

theorem Slot.small {N : Numerics R} {dims : List Nat} {off k : Nat} {g : GateObj R}
    {b : Option (Block R)} (h : Slot N dims off k g b) :
    Small (g.unitary N (numpyBackend R)) (slice dims off k).prod (b = none) := by
  cases b with
  | none =>
    obtain ⟨_, ⟨e, he⟩ | ⟨M, hM, hsq, hlt⟩⟩ := h
    · exact .inl ⟨e, he⟩
    · exact .inr ⟨M, hM, hsq, by omega, fun _ => hlt⟩
  | some b =>
    obtain ⟨hb, ⟨M, hM, hr, hc, _⟩, _⟩ := h
    rw [hb] at hr hc
    exact .inr ⟨M, hM, by rw [hr, hc], by rw [hr], by simp⟩

theorem Layer.small_fold {N : Numerics R} {dims : List Nat} (h2 : ∀ d ∈ dims, 2 ≤ d) {off : Nat}
    {m : List (GateObj R)} {bs : List (Option (Block R))}
    (h : Layer dims.length (Slot N dims) off m bs) (A : Mat R) (hA : A.rows = A.cols) (a : Nat)
    (ha : 0 < a) (hle : A.rows ≤ a) (strict : Prop) (hlt : strict → A.rows < a) :
    Small (m.foldlM (m := PyM) (fun (acc : Mat R) g => do
        .ok ((numpyBackend R).kron acc (← g.unitary N (numpyBackend R)))) A)
      (a * (dims.drop off).prod) (strict ∨ none ∈ bs) := by
  induction h generalizing A a strict with
  | nil => exact .inr ⟨A, rfl, hA, by simpa using hle, by simpa using hlt⟩
  | @cons off k g b m bs hk hle' hinit hcov hP rest ih =>
    rcases hP.small with ⟨e, he⟩ | ⟨M, hM, hsq, hml, hms⟩
    · left
      refine ⟨e, ?_⟩
      rw [List.foldlM_cons, he]
      rfl
    · have hpos : 0 < (slice dims off k).prod := by
        apply prod_pos_of
        intro d hd
        have := h2 d (List.mem_of_mem_drop (List.mem_of_mem_take hd))
        omega
      have hstr : (strict ∨ b = none) → A.rows * M.rows < a * (slice dims off k).prod := by
        rintro (h | h)
        · have := hlt h
          calc A.rows * M.rows ≤ A.rows * (slice dims off k).prod := Nat.mul_le_mul_left _ hml
            _ < a * (slice dims off k).prod := Nat.mul_lt_mul_of_pos_right this hpos
        · have := hms h
          calc A.rows * M.rows ≤ a * M.rows := Nat.mul_le_mul_right _ hle
            _ < a * (slice dims off k).prod := Nat.mul_lt_mul_of_pos_left this ha
      have := ih (A.kron M) (by simp [Mat.kron, hA, hsq]) (a * (slice dims off k).prod)
        (Nat.mul_pos ha hpos) (Nat.mul_le_mul hle hml) (strict ∨ b = none) hstr
      rw [List.foldlM_cons, hM]
      have e1 : a * (slice dims off k).prod * (dims.drop (off + k)).prod = a * (dims.drop off).prod := by
        rw [Nat.mul_assoc, ← List.prod_append, ← List.drop_drop, List.take_append_drop]
      rw [e1] at this
      have e2 : ((strict ∨ b = none) ∨ none ∈ bs) ↔ (strict ∨ none ∈ b :: bs) := by
        rw [List.mem_cons, or_assoc, eq_comm]
      rw [← propext e2]
      exact this

theorem Layer.small {N : Numerics R} {dims : List Nat} (h2 : ∀ d ∈ dims, 2 ≤ d)
    {m : List (GateObj R)} {bs : List (Option (Block R))}
    (h : Layer dims.length (Slot N dims) 0 m bs) :
    Small (momentExec N (numpyBackend R) m) dims.prod (none ∈ bs) := by
  generalize hz : 0 = z at h
  cases h with
  | nil => exact .inl ⟨_, rfl⟩
  | @cons _ k g b m bs hk hle' hinit hcov hP rest =>
    subst hz
    rw [momentExec]
    rcases hP.small with ⟨e, he⟩ | ⟨M, hM, hsq, hml, hms⟩
    · exact .inl ⟨e, by rw [he]; rfl⟩
    · have hpos : 0 < (slice dims 0 k).prod := by
        apply prod_pos_of
        intro d hd
        have := h2 d (List.mem_of_mem_drop (List.mem_of_mem_take hd))
        omega
      have := rest.small_fold h2 M hsq _ hpos hml (b = none) hms
      rw [hM]
      have e1 : (slice dims 0 k).prod * (dims.drop (0 + k)).prod = dims.prod := by
        rw [← List.prod_append, ← List.drop_drop, List.take_append_drop, List.drop_zero]
      rw [e1] at this
      have e2 : (b = none ∨ none ∈ bs) ↔ none ∈ b :: bs := by
        rw [List.mem_cons, eq_comm]
      rw [← propext e2]
      exact this

/-! ### The product of the layers -/

theorem flowLoop_good {N : Numerics R} {dims : List Nat} {initM : List (GateObj R)} {v : Mat R}
    {ψ0 : State R} (hv : momentExec N (numpyBackend R) initM = .ok v) (hv' : IsVec dims v ψ0)
    {rs : List (List (GateObj R))} {Fs : List (State R → State R)}
    (h : List.Forall₂ (fun m F => ∃ A : Mat R, momentExec N (numpyBackend R) m = .ok A ∧ ActsAs dims A F) rs Fs)
    (A : Mat R) (F : State R → State R) (hA : ActsAs dims A F) :
    ∃ w : Mat R, flowLoop N (numpyBackend R) (rs ++ [initM]) (some A) = .ok (some w) ∧
      IsVec dims w (F (Fs.foldr (fun F ψ => F ψ) ψ0)) := by
  induction h generalizing A F with
  | nil =>
    obtain ⟨w, hw, hw'⟩ := hA.dotVec hv'
    refine ⟨w, ?_, hw'⟩
    rw [List.nil_append, flowLoop, hv]
    change (do let p ← Mat.dot A v; flowLoop N (numpyBackend R) [] (some p)) = _
    rw [hw]
    rfl
  | @cons m G rs Fs hm _ ih =>
    obtain ⟨B, hB, hB'⟩ := hm
    obtain ⟨C, hC, hC'⟩ := hA.dot hB'
    obtain ⟨w, hw, hw'⟩ := ih C _ hC'
    refine ⟨w, ?_, hw'⟩
    rw [List.cons_append, flowLoop, hB]
    change (do let p ← Mat.dot A B; flowLoop N (numpyBackend R) (rs ++ [initM]) (some p)) = _
    rw [hC]
    exact hw

theorem flowLoop_good_none {N : Numerics R} {dims : List Nat} {initM : List (GateObj R)} {v : Mat R}
    {ψ0 : State R} (hv : momentExec N (numpyBackend R) initM = .ok v) (hv' : IsVec dims v ψ0)
    {rs : List (List (GateObj R))} {Fs : List (State R → State R)}
    (h : List.Forall₂ (fun m F => ∃ A : Mat R, momentExec N (numpyBackend R) m = .ok A ∧ ActsAs dims A F) rs Fs) :
    ∃ w : Mat R, flowLoop N (numpyBackend R) (rs ++ [initM]) none = .ok (some w) ∧
      IsVec dims w (Fs.foldr (fun F ψ => F ψ) ψ0) := by
  cases h with
  | nil =>
    refine ⟨v, ?_, hv'⟩
    rw [List.nil_append, flowLoop, hv]
    rfl
  | @cons m F rs Fs hm ht =>
    obtain ⟨B, hB, hB'⟩ := hm
    obtain ⟨w, hw, hw'⟩ := flowLoop_good hv hv' ht B F hB'
    refine ⟨w, ?_, hw'⟩
    rw [List.cons_append, flowLoop, hB]
    exact hw

theorem flowLoop_sizes {N : Numerics R} {D : Nat} {initM : List (GateObj R)} {v : Mat R}
    (hv : momentExec N (numpyBackend R) initM = .ok v) (hv' : v.rows = D)
    (rs : List (List (GateObj R)))
    (hsq : ∀ m ∈ rs, ∀ M : Mat R, momentExec N (numpyBackend R) m = .ok M → M.rows = M.cols)
    (A : Mat R) (w : Option (Mat R))
    (h : flowLoop N (numpyBackend R) (rs ++ [initM]) (some A) = .ok w) :
    A.cols = D ∧ ∀ m ∈ rs, ∃ M : Mat R, momentExec N (numpyBackend R) m = .ok M ∧ M.rows = D := by
  induction rs generalizing A with
  | nil =>
    rw [List.nil_append, flowLoop, hv] at h
    change (do let p ← Mat.dot A v; flowLoop N (numpyBackend R) [] (some p)) = _ at h
    refine ⟨?_, by simp⟩
    by_contra hc
    have hd : A.dot v = .error .value := by rw [Mat.dot, if_neg (by omega)]
    rw [hd] at h
    cases h
  | cons m rs ih =>
    rw [List.cons_append, flowLoop] at h
    cases hm : momentExec N (numpyBackend R) m with
    | error e => rw [hm] at h; cases h
    | ok B =>
      rw [hm] at h
      have hB := hsq m (by simp) B hm
      change (do let p ← Mat.dot A B; flowLoop N (numpyBackend R) (rs ++ [initM]) (some p)) = _ at h
      by_cases hc : A.cols = B.rows
      · rw [dot_eq hc] at h
        obtain ⟨h1, h2⟩ := ih (fun m hm => hsq m (by simp [hm])) _ h
        change B.cols = D at h1
        refine ⟨by omega, ?_⟩
        intro m' hm'
        rcases List.mem_cons.1 hm' with rfl | hm'
        · exact ⟨B, hm, by omega⟩
        · exact h2 m' hm'
      · have hd : A.dot B = .error .value := if_neg hc
        rw [hd] at h
        cases h

theorem flowLoop_bad {N : Numerics R} {D : Nat} {initM : List (GateObj R)} {v : Mat R}
    (hv : momentExec N (numpyBackend R) initM = .ok v) (hv' : v.rows = D)
    (rs : List (List (GateObj R)))
    (hsq : ∀ m ∈ rs, ∀ M : Mat R, momentExec N (numpyBackend R) m = .ok M → M.rows = M.cols)
    (m : List (GateObj R)) (hm : m ∈ rs)
    (hbad : ∀ M : Mat R, momentExec N (numpyBackend R) m = .ok M → M.rows ≠ D) :
    ∃ e, flowLoop N (numpyBackend R) (rs ++ [initM]) none = .error e := by
  cases rs with
  | nil => simp at hm
  | cons m0 rs =>
    rw [List.cons_append, flowLoop]
    cases hm0 : momentExec N (numpyBackend R) m0 with
    | error e => exact ⟨e, rfl⟩
    | ok A =>
      change ∃ e, flowLoop N (numpyBackend R) (rs ++ [initM]) (some A) = .error e
      cases hf : flowLoop N (numpyBackend R) (rs ++ [initM]) (some A) with
      | error e => exact ⟨e, rfl⟩
      | ok w =>
        exfalso
        obtain ⟨h1, h2⟩ := flowLoop_sizes hv hv' rs (fun m hm => hsq m (by simp [hm])) A w hf
        rcases List.mem_cons.1 hm with rfl | hm
        · apply hbad A hm0
          have := hsq m (by simp) A hm0
          omega
        · obtain ⟨M, hM, hr⟩ := h2 m hm
          exact hbad M hM hr

end QuDiet
