import Mathlib.LinearAlgebra.Matrix.Rank
import Mathlib.LinearAlgebra.FreeModule.StrongRankCondition
import Verif.Lemmas.Poison

/-! # Operators that are too large

No operator but the preparation of the initial levels has more rows than columns, so a layer with more
columns than the state has entries cannot be multiplied with what comes before it. -/

namespace QuDiet
open Spec

variable {R : Type} [CommRing R]

/-- Number of columns of the matrix of an operator (if it has one). -/
def GateObj.width : GateObj R → Nat
  | .init .. => 1
  | .ident _ d => d
  | .h _ d => d
  | .x _ d _ => d
  | .z _ d => d
  | .cx ds _ _ _ => ds.prod
  | .toffoli _ _ _ _ U _ => U.cols
  | .arb _ _ U => U.cols
  | .meas _ => 0

section
variable [StarRing R] [DecidableEq R] [UnitaryCheck R] {N : Numerics R} {B : Backend R}

/-- A matrix with orthonormal rows has at least as many columns as rows. -/
theorem Mat.Unitary.wide [Nontrivial R] {U : Mat R} (h : U.Unitary) : U.rows ≤ U.cols := by
  let A : Matrix (Fin U.rows) (Fin U.cols) R := fun i j => U.e i j
  let A' : Matrix (Fin U.cols) (Fin U.rows) R := fun j i => star (U.e i j)
  have hm : A * A' = 1 := by
    ext i j
    rw [Matrix.mul_apply, Matrix.one_apply]
    have := h i i.2 j j.2
    unfold Mat.gram at this
    change (∑ k : Fin U.cols, U.e i k * star (U.e j k)) = _
    rw [Fin.sum_univ_eq_sum_range (fun k => U.e i k * star (U.e j k)) U.cols]
    change ((List.range U.cols).map fun k => U.e i k * star (U.e j k)).sum = _
    rw [this]
    simp only [Fin.ext_iff]
  have h1 : (A * A').rank ≤ A.rank := Matrix.rank_mul_le_left A A'
  rw [hm, Matrix.rank_one, Fintype.card_fin] at h1
  exact h1.trans (Matrix.rank_le_width A)

theorem arbMat_ok {ds : DimArg} {U M : Mat R} (h : arbMat ds U = .ok M) : M = U ∧ U.isUnitary = true := by
  unfold arbMat at h
  by_cases hu : U.isUnitary = true
  · rw [hu] at h
    simp only [Bool.not_true, Bool.false_eq_true, if_false] at h
    refine ⟨?_, hu⟩
    split at h
    · split at h <;> cases h; rfl
    · split at h <;> cases h; rfl
    · cases h
    · cases h; rfl
  · simp only [Bool.not_eq_true] at hu
    rw [hu] at h
    cases h

/-- If the matrix of a custom gate is accepted, it has at least as many columns as rows. -/
def GateObj.Wide : GateObj R → Prop
  | .arb _ _ U => U.isUnitary = true → U.rows ≤ U.cols
  | .toffoli _ _ _ _ U _ => U.rows ≤ U.cols
  | _ => True

theorem unitary_wide {g : GateObj R} (hi : g.isInit = false) (hw : g.Wide)
    {M : Mat R} (h : g.unitary N (numpyBackend R) = .ok M) : M.rows ≤ M.cols := by
  cases g with
  | init => cases hi
  | ident q d => cases h; exact le_refl _
  | h q d => cases h; exact le_refl _
  | x q d p =>
    simp only [GateObj.unitary, xMat] at h
    cases hp : pyIndex d p with
    | error e => rw [hp] at h; cases h
    | ok k => rw [hp] at h; cases h; exact le_refl _
  | z q d => cases h; exact le_refl _
  | cx ds c t p =>
    simp only [GateObj.unitary] at h
    cases hm : cxRows (R := R) ds c t p with
    | error e => rw [hm] at h; cases h
    | ok A =>
      rw [hm] at h
      cases h
      have : A.rows = A.cols := by
        unfold cxRows at hm
        simp only at hm
        split at hm
        · cases hm
        · split at hm
          · cases hm
          · cases hm; rfl
      exact this.symm.le
  | toffoli cs t a ds U p =>
    simp only [GateObj.unitary] at h
    cases hm : arbMat (.list ds) U with
    | error e => rw [hm] at h; cases h
    | ok A =>
      rw [hm] at h
      cases h
      obtain ⟨rfl, hu⟩ := arbMat_ok hm
      exact hw
  | arb q ds U =>
    simp only [GateObj.unitary] at h
    cases hm : arbMat ds U with
    | error e => rw [hm] at h; cases h
    | ok A =>
      rw [hm] at h
      cases h
      obtain ⟨rfl, hu⟩ := arbMat_ok hm
      exact hw hu
  | meas q => cases h

/-- An operator of an oversized layer: an identity or single-register gate of the register's dimension, or a
gate with a matrix of its own. -/
def GateObj.Full (dims : List Nat) : GateObj R → Prop
  | .ident q d => d = dims.getD q 0
  | .h _ d => 1 ≤ d
  | .x .. => True
  | .z _ d => 1 ≤ d
  | .toffoli .. => True
  | .arb .. => True
  | _ => False

theorem unitary_width (hN : N.Sized) {dims : List Nat} {g : GateObj R} (hg : g.Full dims)
    {M : Mat R} (h : g.unitary N (numpyBackend R) = .ok M) : M.cols = g.width := by
  cases g with
  | init => cases hg
  | ident q d => cases h; rfl
  | h q d =>
    cases h
    have h1 := hN d hg
    change 1 ≤ d at hg
    simp only [numpyBackend, id, hMat, List.length_dropLast, GateObj.width]
    omega
  | x q d p =>
    simp only [GateObj.unitary, xMat] at h
    cases hp : pyIndex d p with
    | error e => rw [hp] at h; cases h
    | ok k => rw [hp] at h; cases h; simp [numpyBackend, circulant, GateObj.width]
  | z q d =>
    cases h
    simp [numpyBackend, zMat, diagMat, GateObj.width, hN d hg]
  | cx => cases hg
  | toffoli cs t a ds U p =>
    simp only [GateObj.unitary] at h
    cases hm : arbMat (.list ds) U with
    | error e => rw [hm] at h; cases h
    | ok A =>
      rw [hm] at h
      cases h
      obtain ⟨rfl, hu⟩ := arbMat_ok hm
      rfl
  | arb q ds U =>
    simp only [GateObj.unitary] at h
    cases hm : arbMat ds U with
    | error e => rw [hm] at h; cases h
    | ok A =>
      rw [hm] at h
      cases h
      obtain ⟨rfl, hu⟩ := arbMat_ok hm
      rfl
  | meas q => cases hg

/-! ### Layers -/

theorem fold_shape {m : List (GateObj R)} (hi : ∀ g ∈ m, g.isInit = false ∧ g.Wide) {A M : Mat R}
    (hA : A.rows ≤ A.cols)
    (h : m.foldlM (m := PyM) (fun (acc : Mat R) g => do
        .ok ((numpyBackend R).kron acc (← g.unitary N (numpyBackend R)))) A = .ok M) :
    M.rows ≤ M.cols ∧ (N.Sized → ∀ dims, (∀ g ∈ m, g.Full dims) → M.cols = A.cols * (m.map GateObj.width).prod) := by
  induction m generalizing A with
  | nil => cases h; exact ⟨hA, fun _ _ _ => by simp⟩
  | cons g m ih =>
    rw [List.foldlM_cons] at h
    cases hu : g.unitary N (numpyBackend R) with
    | error e => rw [hu] at h; cases h
    | ok u =>
      rw [hu] at h
      have hw := unitary_wide (hi g (by simp)).1 (hi g (by simp)).2 hu
      obtain ⟨h1, h2⟩ := ih (A := A.kron u) (fun g hg => hi g (by simp [hg])) (Nat.mul_le_mul hA hw) h
      refine ⟨h1, fun hN dims hf => ?_⟩
      rw [h2 hN dims fun g hg => hf g (by simp [hg]), List.map_cons, List.prod_cons, ← Nat.mul_assoc,
        ← unitary_width hN (hf g (by simp)) hu]
      rfl

theorem moment_shape {m : List (GateObj R)} (hi : ∀ g ∈ m, g.isInit = false ∧ g.Wide) {M : Mat R}
    (h : momentExec N (numpyBackend R) m = .ok M) :
    M.rows ≤ M.cols ∧ (N.Sized → ∀ dims, (∀ g ∈ m, g.Full dims) → M.cols = (m.map GateObj.width).prod) := by
  cases m with
  | nil => cases h
  | cons g m =>
    rw [momentExec] at h
    cases hu : g.unitary N (numpyBackend R) with
    | error e => rw [hu] at h; cases h
    | ok u =>
      rw [hu] at h
      obtain ⟨h1, h2⟩ := fold_shape (fun g hg => hi g (by simp [hg])) (unitary_wide (hi g (by simp)).1 (hi g (by simp)).2 hu) h
      refine ⟨h1, fun hN dims hf => ?_⟩
      rw [h2 hN dims fun g hg => hf g (by simp [hg]), List.map_cons, List.prod_cons,
        ← unitary_width hN (hf g (by simp)) hu]

theorem flowLoop_wide {D : Nat} {initM : List (GateObj R)} {v : Mat R}
    (hv : momentExec N (numpyBackend R) initM = .ok v) (hv' : v.rows = D)
    (rs : List (List (GateObj R)))
    (hw : ∀ m ∈ rs, ∀ M : Mat R, momentExec N (numpyBackend R) m = .ok M → M.rows ≤ M.cols)
    (A : Mat R) (w : Option (Mat R))
    (h : flowLoop N (numpyBackend R) (rs ++ [initM]) (some A) = .ok w) :
    A.cols ≤ D ∧ ∀ m ∈ rs, ∃ M : Mat R, momentExec N (numpyBackend R) m = .ok M ∧ M.cols ≤ D := by
  induction rs generalizing A with
  | nil =>
    rw [List.nil_append, flowLoop, hv] at h
    change (do let p ← Mat.dot A v; flowLoop N (numpyBackend R) [] (some p)) = _ at h
    refine ⟨?_, by simp⟩
    by_contra hc
    have hd : A.dot v = .error .value := by rw [Mat.dot, if_neg (by omega)]
    rw [hd] at h
    cases h
  | cons m rs ih =>
    rw [List.cons_append, flowLoop] at h
    cases hm : momentExec N (numpyBackend R) m with
    | error e => rw [hm] at h; cases h
    | ok B =>
      rw [hm] at h
      have hB := hw m (by simp) B hm
      change (do let p ← Mat.dot A B; flowLoop N (numpyBackend R) (rs ++ [initM]) (some p)) = _ at h
      by_cases hc : A.cols = B.rows
      · rw [dot_eq hc] at h
        obtain ⟨h1, h2⟩ := ih (fun m hm => hw m (by simp [hm])) _ h
        change B.cols ≤ D at h1
        refine ⟨by omega, ?_⟩
        intro m' hm'
        rcases List.mem_cons.1 hm' with rfl | hm'
        · exact ⟨B, hm, h1⟩
        · exact h2 m' hm'
      · have hd : A.dot B = .error .value := if_neg hc
        rw [hd] at h
        cases h

theorem flowLoop_large {D : Nat} {initM : List (GateObj R)} {v : Mat R}
    (hv : momentExec N (numpyBackend R) initM = .ok v) (hv' : v.rows = D)
    (rs : List (List (GateObj R)))
    (hw : ∀ m ∈ rs, ∀ M : Mat R, momentExec N (numpyBackend R) m = .ok M → M.rows ≤ M.cols)
    (m : List (GateObj R)) (hm : m ∈ rs)
    (hbad : ∀ M : Mat R, momentExec N (numpyBackend R) m = .ok M → D < M.cols) :
    ∃ e, flowLoop N (numpyBackend R) (rs ++ [initM]) none = .error e := by
  cases rs with
  | nil => simp at hm
  | cons m0 rs =>
    rw [List.cons_append, flowLoop]
    cases hm0 : momentExec N (numpyBackend R) m0 with
    | error e => exact ⟨e, rfl⟩
    | ok A =>
      change ∃ e, flowLoop N (numpyBackend R) (rs ++ [initM]) (some A) = .error e
      cases hf : flowLoop N (numpyBackend R) (rs ++ [initM]) (some A) with
      | error e => exact ⟨e, rfl⟩
      | ok w =>
        exfalso
        obtain ⟨h1, h2⟩ := flowLoop_wide hv hv' rs (fun m hm => hw m (by simp [hm])) A w hf
        rcases List.mem_cons.1 hm with rfl | hm
        · have := hbad A hm0
          omega
        · obtain ⟨M, hM, hr⟩ := h2 m hm
          have := hbad M hM
          omega

end

/-! ### Histories -/

/-- The call does not ask for a single-register gate of another dimension than the register's. -/
def Call.Plain (dims : List Nat) : Call R → Prop
  | .h q k | .x q k _ | .z q k => k.getD 0 = 0 ∨ k.getD 0 = dimAt dims q
  | _ => True

/-- Some layer is too large. -/
def TooLarge (dims : List Nat) (ms : List (List (GateObj R))) : Prop :=
  ∃ m ∈ ms, dims.prod < (m.map GateObj.width).prod ∧ ∀ g ∈ m, g.Full dims

theorem dimAt_of_pyGet {dims : List Nat} {q : Int} {d : Nat} (h : pyGet dims q = .ok d) :
    d = dimAt dims q := by
  by_cases hr : -(dims.length : Int) ≤ q ∧ q < dims.length
  · rw [pyGet_dimAt hr.1 hr.2] at h
    cases h
    rfl
  · rw [pyGet_out (by omega)] at h
    cases h

theorem call_large {dims : List Nat} (h2 : ∀ d ∈ dims, 2 ≤ d) {c : Circuit R} {initM : List (GateObj R)}
    {layers : List (List (GateObj R) × List Unit)} (h : Unmeasured dims Free c initM layers)
    {k : Call R} (hm : k.isMeasureAll = false) (hp : k.Plain dims)
    (hg : TooLarge dims (layers.map Prod.fst)) :
    ∃ layers', Unmeasured dims Free (c.call k).1 initM layers' ∧ TooLarge dims (layers'.map Prod.fst) := by
  have one : ∀ (q : Int) (o : Option Nat) (f : Nat → GateObj R), (o.getD 0 = 0 ∨ o.getD 0 = dimAt dims q) →
      (∀ d, (f d).regs = [q] ∧ (f d).isInit = false ∧ (f d).isMeas = false ∧ (f d).isIdent = false ∧
        (f d).width = d ∧ (1 ≤ d → (f d).Full dims)) →
      c.callM k = (do c.validate q o; let d ← c.gateDims q o; c.addMoment (.int q) (f d)) →
      ∃ layers', Unmeasured dims Free (c.call k).1 initM layers' ∧ TooLarge dims (layers'.map Prod.fst) := by
    intro q o f ho hf hk
    cases h1 : c.validate q o with
    | error e =>
      have : (c.call k).1 = c := by simp [Circuit.call, hk, h1, bind, Except.bind]
      rw [this]; exact ⟨layers, h, hg⟩
    | ok u =>
      cases h3 : c.gateDims q o with
      | error e =>
        have : (c.call k).1 = c := by simp [Circuit.call, hk, h1, h3, bind, Except.bind]
        rw [this]; exact ⟨layers, h, hg⟩
      | ok d =>
        have hd : d = dimAt dims q := by
          unfold Circuit.gateDims at h3
          rw [h.regDims] at h3
          rcases o with _ | _ | o
          · exact dimAt_of_pyGet h3
          · exact dimAt_of_pyGet h3
          · cases h3
            rcases ho with ho | ho
            · simp at ho
            · exact ho
        obtain ⟨m1, m2, m3, m4, m5, m6⟩ := hf d
        obtain ⟨fl, layers', a1, a2, a3⟩ := addMoment_spec h (bI := fun _ => ()) (fun _ _ => trivial)
          (q := .int q) (lb := q) (ub := q) (g := f d)
          ⟨⟨rfl, rfl⟩, le_refl _, m2, m3, m4, by simp [m1], by simp [m1], by simp [m1]⟩ () (fun _ => trivial)
        have hc : (c.call k).1 = { c with flow := fl } := by
          simp [Circuit.call, hk, h1, h3, a1, bind, Except.bind]
        rw [hc]
        refine ⟨layers', a2, ?_⟩
        obtain ⟨m, hm1, hm2, hm3⟩ := hg
        rcases a3 with ⟨_, a3⟩ | ⟨_, a3⟩ | ⟨_, b2, _, ls, x1, d', x2, y1, yi, y2, a5, a6, _⟩
        · exact ⟨m, by rw [a3]; simp only [List.map_append, List.mem_append]; exact .inl hm1, hm2, hm3⟩
        · exact ⟨m, by rw [a3]; simp only [List.map_append, List.mem_append]; exact .inl hm1, hm2, hm3⟩
        · rw [a5] at hm1
          simp only [List.map_append, List.mem_append, List.map_cons, List.map_nil, List.mem_singleton] at hm1
          rcases hm1 with hm1 | rfl
          · exact ⟨m, by rw [a6]; simp only [List.map_append, List.mem_append]; exact .inl hm1, hm2, hm3⟩
          · have hq : 0 ≤ q ∧ q < dims.length := by simp only [lo, hi] at b2; omega
            refine ⟨x1 ++ f d :: x2, by rw [a6]; simp, ?_, ?_⟩
            · have e : d' = d := by
                have : d' = dims.getD q.toNat 0 := hm3 (.ident q.toNat d') (by simp)
                rw [this, hd, getD_eq_dimAt hq.1 hq.2]
              subst e
              have e2 : (GateObj.ident q.toNat d' : GateObj R).width = d' := rfl
              simp only [List.map_append, List.map_cons, e2] at hm2
              simpa only [List.map_append, List.map_cons, m5] using hm2
            · have e : 1 ≤ d := by
                have := dimAt_ge_two h2 hq.1 hq.2
                omega
              intro g hg
              simp only [List.mem_append, List.mem_cons] at hg
              rcases hg with hg | rfl | hg
              · exact hm3 g (by simp [hg])
              · exact m6 e
              · exact hm3 g (by simp [hg])
  by_cases hx : k.isHXZ = true
  · cases k with
    | h q o => exact one q o (fun d => .h q d) hp (fun d => ⟨rfl, rfl, rfl, rfl, rfl, id⟩) rfl
    | x q o p => exact one q o (fun d => .x q d p) hp (fun d => ⟨rfl, rfl, rfl, rfl, rfl, fun _ => trivial⟩) rfl
    | z q o => exact one q o (fun d => .z q d) hp (fun d => ⟨rfl, rfl, rfl, rfl, rfl, id⟩) rfl
    | _ => cases hx
  · rcases call_any h hm with ⟨_, _, he⟩ | ⟨ra, lb, ub, g', f, layers', hA, hc, hu, hl⟩
    · rw [he]; exact ⟨layers, h, hg⟩
    · rw [hc]
      refine ⟨layers', hu, ?_⟩
      obtain ⟨m, hm1, hm2⟩ := hg
      rcases hl with hl | ⟨h4, _⟩
      · exact ⟨m, by rw [hl]; simp only [List.mem_append]; exact .inl hm1, hm2⟩
      · rw [hA.hxz] at h4; exact absurd h4 hx

theorem calls_large {dims : List Nat} (h2 : ∀ d ∈ dims, 2 ≤ d) {initM : List (GateObj R)} (ks : List (Call R))
    (hm : ∀ k ∈ ks, k.isMeasureAll = false) (hp : ∀ k ∈ ks, k.Plain dims) {c : Circuit R}
    {layers : List (List (GateObj R) × List Unit)} (h : Unmeasured dims Free c initM layers)
    (hg : TooLarge dims (layers.map Prod.fst)) :
    ∃ layers', Unmeasured dims Free (c.calls ks) initM layers' ∧ TooLarge dims (layers'.map Prod.fst) := by
  induction ks generalizing c layers with
  | nil => exact ⟨layers, h, hg⟩
  | cons k ks ih =>
    obtain ⟨layers', h1, h3⟩ := call_large h2 h (hm k (by simp)) (hp k (by simp)) hg
    rw [Circuit.calls_cons]
    exact ih (fun k hk => hm k (by simp [hk])) (fun k hk => hp k (by simp [hk])) h1 h3

variable [StarRing R] [DecidableEq R] [UnitaryCheck R] {N : Numerics R} {B : Backend R}

theorem Layer.noInit {β : Type} {n : Nat} {P : Nat → Nat → GateObj R → β → Prop} {off : Nat}
    {m : List (GateObj R)} {bs : List β} (h : Layer n P off m bs) : ∀ g ∈ m, g.isInit = false := by
  induction h with
  | nil => simp
  | cons _ _ hi _ _ _ ih =>
    intro g hg
    rcases List.mem_cons.1 hg with rfl | hg
    · exact hi
    · exact ih g hg

/-- If the matrix of a custom gate is accepted, it has at least as many columns as rows. -/
def Call.Wide : Call R → Prop
  | .gate U _ _ => U.isUnitary = true → U.rows ≤ U.cols
  | _ => True

theorem toffoliDm_square {cs : List Int} {t p : Int} {dims : List Nat} {U : Mat R} {lb ub : Int} {ds : List Nat}
    (h : toffoliDm cs t p dims = .ok (U, lb, ub, ds)) : U.rows = U.cols := by
  unfold toffoliDm at h
  cases h1 : pyMin (cs ++ [t]) with
  | error e => simp only [h1, bind, Except.bind] at h; cases h
  | ok lb' =>
  cases h2 : pyMax (cs ++ [t]) with
  | error e => simp only [h1, h2, bind, Except.bind] at h; cases h
  | ok ub' =>
  cases h3 : (pyRange lb' (ub' + 1)).mapM (pyGet dims) with
  | error e => simp only [h1, h2, h3, bind, Except.bind] at h; cases h
  | ok sub =>
  cases h4 : pyGet dims t with
  | error e => simp only [h1, h2, h3, h4, bind, Except.bind] at h; cases h
  | ok dt =>
  simp only [h1, h2, h3, h4, bind, Except.bind] at h
  split at h
  · cases h
  · cases h; rfl

theorem Adds.wide {c : Circuit R} {k : Call R} {ra : RegArg} {lb ub : Int} {g : GateObj R}
    (h : Adds c k ra lb ub g) (hw : k.Wide) : g.Wide := by
  have := h.src
  cases g with
  | arb q ds U => obtain ⟨o, rfl⟩ := this; exact hw
  | toffoli cs t a ds U p =>
    obtain ⟨rfl, lb, ub, h⟩ := this
    exact (toffoliDm_square h).le
  | _ => trivial

theorem ids_wide (dims : List Nat) (a b : Nat) : ∀ g ∈ ids (R := R) dims a b, g.Wide := by
  intro x hx
  obtain ⟨r, _, rfl⟩ := List.mem_map.1 hx
  trivial

theorem layout_wide (dims : List Nat) {lb ub : Int} {g : GateObj R} (hg : g.Wide) :
    ∀ x ∈ layout dims lb ub g, x.Wide := by
  intro x hx
  simp only [layout] at hx
  split at hx
  · simp only [List.mem_append, List.mem_cons] at hx
    rcases hx with hx | rfl | hx
    · exact ids_wide _ _ _ x hx
    · exact hg
    · exact ids_wide _ _ _ x hx
  · exact ids_wide _ _ _ x hx

theorem calls_wide {dims : List Nat} {initM : List (GateObj R)} (ks : List (Call R))
    (hm : ∀ k ∈ ks, k.isMeasureAll = false) (hw : ∀ k ∈ ks, k.Wide) {c : Circuit R}
    {layers : List (List (GateObj R) × List Unit)} (h : Unmeasured dims Free c initM layers)
    (hg : ∀ m ∈ layers.map Prod.fst, ∀ g ∈ m, g.Wide) :
    ∃ layers', Unmeasured dims Free (c.calls ks) initM layers' ∧
      ∀ m ∈ layers'.map Prod.fst, ∀ g ∈ m, g.Wide := by
  induction ks generalizing c layers with
  | nil => exact ⟨layers, h, hg⟩
  | cons k ks ih =>
    rw [Circuit.calls_cons]
    rcases call_any h (hm k (by simp)) with ⟨_, _, he⟩ | ⟨ra, lb, ub, g, f, layers', hA, hc, hu, hl⟩
    · rw [he]
      exact ih (fun k hk => hm k (by simp [hk])) (fun k hk => hw k (by simp [hk])) h hg
    · rw [hc]
      have hgw := hA.wide (hw k (by simp))
      refine ih (fun k hk => hm k (by simp [hk])) (fun k hk => hw k (by simp [hk])) hu ?_
      rcases hl with hl | ⟨_, _, _, ls, m1, d, m2, h1, h2⟩
      · rw [hl]
        intro m hm'
        rcases List.mem_append.1 hm' with hm' | hm'
        · exact hg m hm'
        · rw [List.mem_singleton] at hm'
          rw [hm']
          exact layout_wide dims hgw
      · rw [h2]
        intro m hm'
        rcases List.mem_append.1 hm' with hm' | hm'
        · exact hg m (by rw [h1]; simp [hm'])
        · rw [List.mem_singleton] at hm'
          subst hm'
          intro x hx
          simp only [List.mem_append, List.mem_cons] at hx
          have := hg (m1 ++ .ident lb.toNat d :: m2) (by rw [h1]; simp)
          rcases hx with hx | rfl | hx
          · exact this x (by simp [hx])
          · exact hgw
          · exact this x (by simp [hx])

/-- A circuit with a layer that is too large cannot be run, whatever plain calls follow. -/
theorem large_fails (hN : N.Sized) {dims : List Nat} {init : List Int}
    (hv : ValidStart (dims.map Int.ofNat) init) {c : Circuit R}
    {layers : List (List (GateObj R) × List Unit)} (h : Unmeasured dims Free c (initOps dims init) layers)
    (hgw : ∀ m ∈ layers.map Prod.fst, ∀ g ∈ m, g.Wide)
    (hg : TooLarge dims (layers.map Prod.fst)) (ks : List (Call R)) (hp : ∀ k ∈ live ks, k.Plain dims)
    (hw : ∀ k ∈ live ks, k.Wide) :
    ∃ e, (c.calls ks).runResult N (numpyBackend R) = .error e := by
  obtain ⟨rest, hks, hrest⟩ := live_append ks
  obtain ⟨layers', h1, m, hm1, hm2, hm3⟩ := calls_large (ge_two_of_valid hv) (live ks) live_not_measure hp h hg
  obtain ⟨layers'', h1', hwide⟩ := calls_wide (live ks) live_not_measure hw h hgw
  have hll : layers''.map Prod.fst = layers'.map Prod.fst := by
    have := h1'.moments.symm.trans h1.moments
    exact List.cons.inj this |>.2
  rw [hll] at hwide
  have hnot : ∀ c' : Circuit R, (∃ e, c'.flow.exec N (numpyBackend R) = .error e) →
      ∃ e, c'.runResult N (numpyBackend R) = .error e := by
    rintro c' ⟨e, he⟩
    exact ⟨e, by simp only [Circuit.runResult, he, bind, Except.bind]⟩
  rcases hrest with ⟨rfl, hno⟩ | ⟨r, rfl⟩
  · rw [List.append_nil] at hks
    rw [hks]
    apply hnot
    refine ⟨.assertion, ?_⟩
    unfold Flow.exec
    rw [h1.notAll]
    rfl
  · rw [hks, Circuit.calls_append, Circuit.calls_cons, calls_measured (measureAll_any h1)]
    apply hnot
    unfold Flow.exec
    rw [(measureAll_any h1).2]
    simp only [if_true]
    rw [h1.measure]
    simp only [h1.moments]
    rw [if_neg (by simp), List.dropLast_concat, List.reverse_cons]
    obtain ⟨_, v, hv1, hv2⟩ := initOps_prepares N hv h1.npos
    have hin : ∀ m ∈ (layers'.map Prod.fst).reverse, ∀ g ∈ m, g.isInit = false ∧ g.Wide := by
      intro m hm g hg
      rw [List.mem_reverse] at hm
      refine ⟨?_, hwide m hm g hg⟩
      obtain ⟨l, hl, rfl⟩ := List.mem_map.1 hm
      exact (h1.lay l hl).noInit g hg
    refine flowLoop_large hv1 hv2.1 _ (fun m hm M hM => (moment_shape (hin m hm) hM).1) m
      (List.mem_reverse.2 hm1) fun M hM => ?_
    rw [(moment_shape (hin m (List.mem_reverse.2 hm1)) hM).2 hN dims hm3]
    exact hm2

end QuDiet
