import Verif.Lemmas.History
import Verif.Float

/-! # Matrices of zeros and ones

The matrices of increments have one 1 in each column and zeros elsewhere. Products of such matrices are computed
without rounding errors. -/

namespace QuDiet
open Spec

section
variable {R : Type} [CommRing R]

/-- Each column has a single 1. -/
def Mat.Picks (A : Mat R) : Prop :=
  ∀ j < A.cols, ∃ r < A.rows, ∀ i < A.rows, A.e i j = if i = r then 1 else 0

theorem Mat.Picks.kron {A B : Mat R} (hA : A.Picks) (hB : B.Picks) : (A.kron B).Picks := by
  intro j hj
  simp only [Mat.kron] at hj ⊢
  have hc : 0 < B.cols := Nat.pos_of_ne_zero fun h => by simp [h] at hj
  obtain ⟨r, hr, h1⟩ := hA (j / B.cols) (Nat.div_lt_of_lt_mul (by rwa [Nat.mul_comm]))
  obtain ⟨s, hs, h2⟩ := hB (j % B.cols) (Nat.mod_lt _ hc)
  have hb : 0 < B.rows := by omega
  refine ⟨r * B.rows + s, ?_, ?_⟩
  · calc r * B.rows + s < r * B.rows + B.rows := by omega
      _ = (r + 1) * B.rows := by rw [Nat.add_mul, Nat.one_mul]
      _ ≤ A.rows * B.rows := Nat.mul_le_mul_right _ hr
  · intro i hi
    rw [h1 _ (Nat.div_lt_of_lt_mul (by rwa [Nat.mul_comm])), h2 _ (Nat.mod_lt _ hb)]
    have hiff : i = r * B.rows + s ↔ i / B.rows = r ∧ i % B.rows = s := by
      constructor
      · rintro rfl
        rw [Nat.mul_comm, Nat.mul_add_div hb, Nat.div_eq_of_lt hs, Nat.mul_add_mod, Nat.mod_eq_of_lt hs]
        simp
      · rintro ⟨rfl, rfl⟩
        rw [Nat.mul_comm]
        exact (Nat.div_add_mod i B.rows).symm
    by_cases h1 : i / B.rows = r <;> by_cases h2 : i % B.rows = s <;> simp [hiff, h1, h2]

theorem sum_pick {n r : Nat} (hr : r < n) (f : Nat → R) (g : Nat → R)
    (hg : ∀ k < n, g k = if k = r then 1 else 0) :
    ((List.range n).map fun k => f k * g k).sum = f r := by
  have : ((List.range n).map fun k => f k * g k) = (List.range n).map fun k => if k = r then f r else 0 := by
    apply List.map_congr_left
    intro k hk
    rw [hg k (List.mem_range.1 hk)]
    by_cases h : k = r
    · simp [h]
    · simp [h]
  rw [this]
  exact (Finset.sum_ite_eq' (Finset.range n) r fun _ => f r).trans (if_pos (Finset.mem_range.2 hr))

theorem Mat.Picks.dot {A B C : Mat R} (hA : A.Picks) (hB : B.Picks) (h : A.dot B = .ok C) : C.Picks := by
  unfold Mat.dot at h
  split at h
  · rename_i hc
    cases h
    intro j hj
    obtain ⟨r, hr, h1⟩ := hB j hj
    obtain ⟨s, hs, h2⟩ := hA r (by omega)
    refine ⟨s, hs, ?_⟩
    intro i hi
    simp only at hi ⊢
    rw [sum_pick (r := r) (by omega) (A.e i) (fun k => B.e k j) (fun k hk => h1 k (by omega)), h2 i hi]
  · cases h

theorem eye_picks (n : Nat) : (Mat.eye (R := R) n).Picks := fun j hj => ⟨j, hj, fun _ _ => rfl⟩

theorem xMat_picks {d : Nat} {p : Int} {M : Mat R} (h : xMat d p = .ok M) : M.Picks := by
  by_cases hp : p < -(d : Int) ∨ (d : Int) ≤ p
  · rw [xMat_error hp] at h; cases h
  · obtain ⟨M', h1, h2, h3, h4⟩ := xMat_ok (R := R) (d := d) (p := p) (by omega) (by omega)
    rw [h1] at h
    cases h
    intro j hj
    rw [h3] at hj
    refine ⟨(((j : Int) + p) % (d : Int)).toNat, ?_, ?_⟩
    · rw [h2]; exact emod_toNat_lt _ (by omega)
    · intro i hi
      rw [h2] at hi
      rw [h4 i hi j hj]
      unfold shiftEntry
      simp only [eq_comm]

theorem pyIndex_lt {n k : Nat} {i : Int} (h : pyIndex n i = .ok k) : k < n := by
  unfold pyIndex at h
  by_cases h0 : 0 ≤ i
  · rw [if_pos h0] at h
    by_cases h1 : i < n
    · rw [if_pos h1] at h; cases h; omega
    · rw [if_neg h1] at h; cases h
  · rw [if_neg h0] at h
    by_cases h1 : 0 ≤ i + n
    · rw [if_pos h1] at h; cases h; omega
    · rw [if_neg h1] at h; cases h

theorem initVec_picks {d : Nat} {s : Int} {M : Mat R} (h : initVec d s = .ok M) : M.Picks := by
  unfold initVec at h
  cases hp : pyIndex d s with
  | error e => rw [hp] at h; cases h
  | ok k =>
    rw [hp] at h
    cases h
    intro j _
    refine ⟨k, ?_, fun _ _ => rfl⟩
    exact pyIndex_lt hp

theorem cxRows_picks {ds : List Nat} {c t p : Int} {M : Mat R} (h : cxRows ds c t p = .ok M) :
    M.transpose.Picks := by
  unfold cxRows at h
  simp only at h
  cases h1 : pyGet ds (if c < t then 0 else c - t) with
  | error e => rw [h1] at h; cases h
  | ok src =>
    rw [h1] at h
    cases h2 : pyGet ds (if c < t then t - c else 0) with
    | error e => rw [h2] at h; cases h
    | ok tgt =>
      rw [h2] at h
      cases h
      set q := (if c < t then t - c else 0) with hq
      have hq0 : 0 ≤ q := by rw [hq]; split <;> omega
      have hql : q.toNat < ds.length ∧ ds.getD q.toNat 0 = tgt := by
        unfold pyGet pyIndex at h2
        rw [if_pos hq0] at h2
        by_cases hl : q < ds.length
        · rw [if_pos hl] at h2
          have hl' : q.toNat < ds.length := by omega
          simp only [List.getElem?_eq_getElem hl'] at h2
          cases h2
          exact ⟨hl', by simp [List.getD_eq_getElem?_getD, hl']⟩
        · rw [if_neg hl] at h2
          cases h2
      intro j hj
      simp only [Mat.transpose] at hj ⊢
      have hl : j < (states ds).length := by rwa [length_states]
      have hs : Fits ds ((states ds).getD j []) := by
        rw [List.getD_eq_getElem?_getD, List.getElem?_eq_getElem hl]
        exact mem_states.1 (List.getElem_mem hl)
      rw [ttg_eq]
      by_cases hctl : ((states ds).getD j []).getD (if c < t then 0 else c - t).toNat 0 + 1 = src
      · simp only [if_pos hctl]
        have hf := fits_bump hs _ hql.1 p
        unfold cxUpdate
        have hb : bump ds q.toNat p ((states ds).getD j []) = ((states ds).getD j []).set q.toNat
            (((((states ds).getD j []).getD q.toNat 0 : Int) + p) % (tgt : Int)).toNat := by
          rw [bump, hql.2]
        simp only [← hb, getIndex_states hf]
        exact ⟨_, value_lt hf, fun _ _ => rfl⟩
      · simp only [if_neg hctl]
        exact ⟨j, hj, fun i _ => by simp only [eq_comm]⟩

theorem mapM_getD {α β : Type} (l : List α) (f : α → PyM β) (bs : List β) (h : l.mapM f = .ok bs) (b : β)
    (i : Nat) (hi : i < l.length) : f l[i] = .ok (bs.getD i b) := by
  induction l generalizing bs i with
  | nil => simp at hi
  | cons a l ih =>
    rw [List.mapM_cons] at h
    cases ha : f a with
    | error e => rw [ha] at h; cases h
    | ok y =>
      rw [ha] at h
      cases hl : l.mapM f with
      | error e => rw [hl] at h; cases h
      | ok ys =>
        rw [hl] at h
        cases h
        cases i with
        | zero => simpa using ha
        | succ i => simpa using ih ys hl i (by simpa using hi)

theorem toffoliDm_picks {cs : List Int} {t p lb ub : Int} {seq ds : List Nat} {U : Mat R}
    (h : toffoliDm cs t p seq = .ok (U, lb, ub, ds)) : U.Picks := by
  unfold toffoliDm at h
  cases h1 : pyMin (cs ++ [t]) with
  | error e => rw [h1] at h; cases h
  | ok lb' =>
  rw [h1] at h
  cases h2 : pyMax (cs ++ [t]) with
  | error e => rw [h2] at h; cases h
  | ok ub' =>
  rw [h2] at h
  change ((pyRange lb' (ub' + 1)).mapM (pyGet seq) >>= _) = _ at h
  cases h3 : (pyRange lb' (ub' + 1)).mapM (pyGet seq) with
  | error e => rw [h3] at h; cases h
  | ok sub =>
  rw [h3] at h
  change (pyGet seq t >>= _) = _ at h
  cases h4 : pyGet seq t with
  | error e => rw [h4] at h; cases h
  | ok dt =>
  rw [h4] at h
  change ((List.range sub.prod).mapM (toffoliRow cs t p lb' sub dt (generateCombinations sub)) >>= _) = _ at h
  cases h5 : (List.range sub.prod).mapM (toffoliRow cs t p lb' sub dt (generateCombinations sub)) with
  | error e => rw [h5] at h; cases h
  | ok repl =>
  rw [h5] at h
  cases h
  intro j hj
  simp only at hj ⊢
  refine ⟨repl.getD j 0, ?_, fun i _ => by simp only [eq_comm]⟩
  have h6 := mapM_getD _ _ _ h5 0 j (by simpa using hj)
  simp only [List.getElem_range] at h6
  unfold toffoliRow at h6
  simp only at h6
  split at h6
  · split at h6
    · rename_i k hk
      rw [← Except.ok.inj h6]
      unfold getIndex at hk
      have := (List.findIdx?_eq_some_iff_findIdx_eq.1 hk).1
      rwa [generateCombinations_eq, length_states] at this
    · cases h6
  · rw [← Except.ok.inj h6]
    exact hj

end

/-! ### Backends with rounding -/

variable [UnitaryCheck ℂ] {B : Backend ℂ} {u : ℝ}

/-- `a` holds exactly the entries of `b`, which has a single 1 in each column. -/
def Exactly (B : Backend ℂ) (a : B.M) (b : (numpyBackend ℂ).M) : Prop :=
  Mat.Same (B.toarray a) b ∧ Mat.Picks (R := ℂ) b

theorem eq_of_norm_le_zero {a b : ℂ} (h : ‖a - b‖ ≤ 0) : a = b :=
  sub_eq_zero.1 (norm_le_zero_iff.1 h)

theorem Mat.Picks.bit {A : Mat ℂ} (h : A.Picks) {i j : Nat} (hi : i < A.rows) (hj : j < A.cols) :
    A.e i j = 1 ∨ A.e i j = 0 := by
  obtain ⟨r, _, hr⟩ := h j hj
  rw [hr i hi]
  split
  · exact .inl rfl
  · exact .inr rfl

theorem rounds_matrix (hB : B.Rounds u) {m : Mat ℂ}
    (h : ∀ i < m.rows, ∀ j < m.cols, m.e i j = 1 ∨ m.e i j = 0) : (B.toarray (B.matrix m)).Same m := by
  refine ⟨(hB.matrixShape m).1, (hB.matrixShape m).2, ?_⟩
  intro i hi j hj
  rw [(hB.matrixShape m).1] at hi
  rw [(hB.matrixShape m).2] at hj
  obtain ⟨h1, h2⟩ := hB.matrix m i hi j hj
  rcases h i hi j hj with h3 | h3
  · rw [h2 h3, h3]
  · rw [h3, norm_zero, mul_zero] at h1
    rw [h3]
    exact eq_of_norm_le_zero h1

theorem rounds_kron (hB : B.Rounds u) {a a' : B.M} {b b' : (numpyBackend ℂ).M} (h : Exactly B a b)
    (h' : Exactly B a' b') : Exactly B (B.kron a a') ((numpyBackend ℂ).kron b b') := by
  refine ⟨Mat.Same.trans' (B := (B.toarray a).kron (B.toarray a')) ?_ (Mat.Same.kron h.1 h'.1), h.2.kron h'.2⟩
  refine ⟨(hB.kronShape a a').1, (hB.kronShape a a').2, ?_⟩
  intro i hi j hj
  obtain ⟨h1, h2⟩ := hB.kron a a' i hi j hj
  rw [(hB.kronShape a a').1] at hi
  rw [(hB.kronShape a a').2] at hj
  simp only [Mat.kron]
  have hi' : i / (B.toarray a').rows < (B.toarray a).rows := Nat.div_lt_of_lt_mul (by rwa [Nat.mul_comm] at hi)
  have hj' : j / (B.toarray a').cols < (B.toarray a).cols := Nat.div_lt_of_lt_mul (by rwa [Nat.mul_comm] at hj)
  have key := h.1.2.2 _ hi' _ hj'
  rw [h.1.1] at hi'
  rw [h.1.2.1] at hj'
  rcases h.2.bit hi' hj' with h3 | h3
  · rw [h3] at key
    rw [h2 key, key, one_mul]
  · rw [h3] at key
    rw [key, zero_mul, norm_zero, mul_zero] at h1
    rw [key, zero_mul]
    exact eq_of_norm_le_zero h1

theorem rounds_dot (hB : B.Rounds u) {a a' : B.M} {b b' : (numpyBackend ℂ).M} (h : Exactly B a b)
    (h' : Exactly B a' b') : SameM (Exactly B) (B.dot a a') ((numpyBackend ℂ).dot b b') := by
  by_cases hc : (B.toarray a).cols = (B.toarray a').rows
  · obtain ⟨c, h1, h2, h3, h4⟩ := hB.dot a a' hc
    have hc' : Mat.cols (R := ℂ) b = Mat.rows (R := ℂ) b' := by rw [← h.1.2.1, ← h'.1.1, hc]
    have hd := dot_eq (A := b) (B := b') hc'
    refine .inr ⟨c, _, h1, hd, ⟨by rw [h2]; exact h.1.1, by rw [h3]; exact h'.1.2.1, ?_⟩, h.2.dot h'.2 hd⟩
    intro i hi j hj
    rw [h2] at hi
    rw [h3] at hj
    have hjb : j < Mat.cols (R := ℂ) b' := by rw [← h'.1.2.1]; exact hj
    obtain ⟨r, hr, hr'⟩ := h'.2 j hjb
    have hrb : r < (B.toarray a').rows := by rw [h'.1.1]; exact hr
    have h5 := (h4 i hi j hj).2 r (by rw [hc]; exact hrb)
      (by rw [h'.1.2.2 r hrb j hj, hr' r hr, if_pos rfl])
      (by
        intro l hl hlr
        rw [hc] at hl
        rw [h'.1.2.2 l hl j hj, hr' l (by rw [← h'.1.1]; exact hl), if_neg hlr])
    rw [h5]
    simp only
    rw [sum_pick (r := r) (by omega) (Mat.e (R := ℂ) b i) (fun k => Mat.e (R := ℂ) b' k j)
      (fun k hk => hr' k (by omega))]
    exact h.1.2.2 i hi r (by rw [hc]; exact hrb)
  · exact .inl ⟨.value, hB.dotError a a' hc, if_neg (by rw [← h.1.2.1, ← h'.1.1]; exact hc)⟩

/-- The operators whose matrices have a single 1 in each column. -/
def GateObj.Digital : GateObj ℂ → Prop
  | .h .. | .z .. | .arb .. => False
  | .toffoli _ _ _ _ U _ => U.Picks
  | _ => True

theorem arbMat_eq {ds : DimArg} {U m : Mat ℂ} (hm : arbMat ds U = .ok m) : U = m := by
  unfold arbMat at hm
  split at hm
  · cases hm
  · cases ds with
    | int d => simp only at hm; split at hm <;> cases hm; rfl
    | list ds =>
      cases ds with
      | nil => cases hm; rfl
      | cons d ds =>
        cases ds with
        | nil => simp only at hm; split at hm <;> cases hm; rfl
        | cons d' ds =>
          cases ds with
          | nil => cases hm
          | cons d'' ds => cases hm; rfl

theorem rounds_unitary (hB : B.Rounds u) (N N' : Numerics ℂ) {g : GateObj ℂ} (hg : g.Digital) :
    SameM (Exactly B) (g.unitary N' B) (g.unitary N (numpyBackend ℂ)) := by
  cases g with
  | init d s q =>
    simp only [GateObj.unitary]
    cases hm : initVec (R := ℂ) d s with
    | error e => exact .inl ⟨e, rfl, rfl⟩
    | ok m => exact .inr ⟨_, _, rfl, rfl, rounds_matrix hB fun i hi j hj => (initVec_picks hm).bit hi hj, initVec_picks hm⟩
  | ident q d => exact .inr ⟨_, _, rfl, rfl, hB.eye d, eye_picks d⟩
  | h q d => exact hg.elim
  | x q d p =>
    simp only [GateObj.unitary]
    cases hm : xMat (R := ℂ) d p with
    | error e => exact .inl ⟨e, rfl, rfl⟩
    | ok m => exact .inr ⟨_, _, rfl, rfl, rounds_matrix hB fun i hi j hj => (xMat_picks hm).bit hi hj, xMat_picks hm⟩
  | z q d => exact hg.elim
  | cx ds c t p =>
    simp only [GateObj.unitary]
    cases hm : cxRows (R := ℂ) ds c t p with
    | error e => exact .inl ⟨e, rfl, rfl⟩
    | ok m =>
      have := cxRows_picks hm
      refine .inr ⟨_, _, rfl, rfl, (hB.transpose _).trans' (rounds_matrix hB ?_).transpose, this⟩
      intro i hi j hj
      exact this.bit (i := j) (j := i) hj hi
  | toffoli cs t a ds U p =>
    simp only [GateObj.unitary]
    cases hm : arbMat (.list ds) U with
    | error e => exact .inl ⟨e, rfl, rfl⟩
    | ok m => exact .inr ⟨_, _, rfl, rfl, rounds_matrix hB fun i hi j hj => (arbMat_eq hm ▸ hg).bit hi hj, arbMat_eq hm ▸ hg⟩
  | arb => exact hg.elim
  | meas q => exact .inl ⟨_, rfl, rfl⟩

theorem rounds_moment (hB : B.Rounds u) (N N' : Numerics ℂ) (m : List (GateObj ℂ)) (hm : ∀ g ∈ m, g.Digital) :
    SameM (Exactly B) (momentExec N' B m) (momentExec N (numpyBackend ℂ) m) := by
  cases m with
  | nil => exact .inl ⟨_, rfl, rfl⟩
  | cons g m =>
    rw [momentExec, momentExec]
    apply (rounds_unitary hB N N' (hm g (by simp))).bind
    have hm' : ∀ g ∈ m, g.Digital := fun g hg => hm g (by simp [hg])
    clear hm
    intro a b hab
    induction m generalizing a b with
    | nil => exact .inr ⟨a, b, rfl, rfl, hab⟩
    | cons g' m ih =>
      rw [List.foldlM_cons, List.foldlM_cons]
      apply SameM.bind (P := Exactly B)
      · apply (rounds_unitary hB N N' (hm' g' (by simp))).bind
        intro x y hxy
        exact .inr ⟨_, _, rfl, rfl, rounds_kron hB hab hxy⟩
      · exact ih fun g hg => hm' g (by simp [hg])

theorem rounds_flow (hB : B.Rounds u) (N N' : Numerics ℂ) (ms : List (List (GateObj ℂ)))
    (hms : ∀ m ∈ ms, ∀ g ∈ m, g.Digital) (acc : Option B.M) (acc' : Option (numpyBackend ℂ).M)
    (h : (acc = none ∧ acc' = none) ∨ ∃ a b, acc = some a ∧ acc' = some b ∧ Exactly B a b) :
    SameM (fun x (y : Option (numpyBackend ℂ).M) => (x = none ∧ y = none) ∨
        ∃ a b, x = some a ∧ y = some b ∧ Exactly B a b)
      (flowLoop N' B ms acc) (flowLoop N (numpyBackend ℂ) ms acc') := by
  induction ms generalizing acc acc' with
  | nil => exact .inr ⟨_, _, rfl, rfl, h⟩
  | cons m ms ih =>
    have ih := ih fun m hm => hms m (by simp [hm])
    rw [flowLoop, flowLoop]
    apply (rounds_moment hB N N' m (hms m (by simp))).bind
    intro x y hxy
    rcases h with ⟨rfl, rfl⟩ | ⟨a, b, rfl, rfl, hab⟩
    · exact ih _ _ (.inr ⟨x, y, rfl, rfl, hxy⟩)
    · apply SameM.bind (rounds_dot hB hab hxy)
      intro c d hcd
      exact ih _ _ (.inr ⟨c, d, rfl, rfl, hcd⟩)

/-- Calls of gates that only permute levels. -/
def Call.Digital : Call ℂ → Prop
  | .h .. | .z .. | .gate .. => False
  | _ => True

theorem digital_from {dims seq : List Nat} {k : Call ℂ} (hk : k.Digital) {g : GateObj ℂ} (h : g.From dims seq k) :
    g.Digital := by
  cases g with
  | h q d => obtain ⟨o, rfl, _⟩ := h; exact hk.elim
  | z q d => obtain ⟨o, rfl, _⟩ := h; exact hk.elim
  | arb q d U => obtain ⟨o, rfl⟩ := h; exact hk.elim
  | toffoli cs t a ds U p => obtain ⟨_, lb, ub, h⟩ := h; exact toffoliDm_picks h
  | _ => trivial

theorem initOps_digital (dims : List Nat) (init : List Int) : ∀ g ∈ initOps (R := ℂ) dims init, g.Digital := by
  intro g hg
  have := (initOps_isInit dims init g hg).1
  cases g <;> simp_all [GateObj.isInit, GateObj.Digital]

/-- Permuting circuits give the same results with rounding as without. -/
theorem rounds_run (hB : B.Rounds u) (N N' : Numerics ℂ) {q : RegsArg} {dims : List Nat} (hpos : 0 < dims.length)
    (init : List Int) (out : Option Output) {ks : List (Call ℂ)} (hks : ∀ k ∈ ks, k.Digital) :
    ((freshCircuit q dims init out).calls ks).runResult N' B =
      ((freshCircuit q dims init out).calls ks).runResult N (numpyBackend ℂ) := by
  have := exec_made (P := GateObj.Digital) (ι := Unit) (w := fun _ _ => 1) (V := fun _ _ => 1)
    (by simp [GateObj.Digital]) (by simp) (by simp) (q := q) hpos init out ks (by simp)
    fun k hk g hg => ⟨digital_from (hks k (mem_of_live hk)) hg, fun _ => le_rfl⟩
  unfold Circuit.runResult
  rcases this with h | ⟨layers, _, hM, h⟩
  · rw [h, h]; rfl
  · rw [h, h]
    rcases rounds_flow hB N N' (initOps dims init :: layers).reverse (by
        intro m hm g hg
        rw [List.mem_reverse, List.mem_cons] at hm
        rcases hm with rfl | hm
        · exact initOps_digital dims init g hg
        · exact hM.objs m hm g hg) none none (.inl ⟨rfl, rfl⟩) with ⟨e, h1, h2⟩ | ⟨x, y, h1, h2, h⟩
    · rw [h1, h2]; rfl
    · rw [h1, h2]
      rcases h with ⟨rfl, rfl⟩ | ⟨a, b, rfl, rfl, hab⟩
      · rfl
      · exact output_same hab.1 _

end QuDiet
