import Verif.Props.Sample

/-! # C01, C02, C24, C25, C36: what `run()` computes -/

namespace QuDiet
open Spec

variable {R : Type} [CommRing R] [StarRing R] [DecidableEq R] [UnitaryCheck R] [Nontrivial R]

/-! ### C01 -/

/-- **C01.** Valid gate calls followed by `measure_all()`: `run()` returns the non-zero amplitudes of the
state that results from `|init⟩` by applying the documented effect of each call, in call order. -/
theorem C01_run_sequential {N : Numerics R} (hN : N.Sized) {B : Backend R} (hB : B.Lawful)
    {dims : List Nat} (hne : dims ≠ []) {init : List Int} (h : ValidStart (dims.map Int.ofNat) init)
    {ks : List (Call R)} (hks : ∀ k ∈ ks, k.Valid dims) :
    script N B (.list (dims.map Int.ofNat)) init none (ks ++ [.measureAll]) =
      .ok (shown dims (ks.foldl (fun ψ k => meaning N dims k ψ) (basis (startLevels dims init)))) :=
  script_valid hN hB hne h (out := none) (by simp) hks []

/-- **C01**, for every history of calls, valid or not (`fate` says what becomes of a call, and `live`
cuts the history at the first `measure_all()`): without `measure_all()` `run()` raises
`AssertionError`; with a call that breaks the circuit it raises; otherwise it returns the state
after the calls that take effect. -/
theorem C01_run_total {N : Numerics R} (hN : N.Sized) {B : Backend R} (hB : B.Lawful)
    {dims : List Nat} (hne : dims ≠ []) {init : List Int} (h : ValidStart (dims.map Int.ofNat) init)
    (ks : List (Call R)) (hreg : ∀ k ∈ live ks, fate dims k ≠ .odd) :
    (.measureAll ∉ ks → script N B (.list (dims.map Int.ofNat)) init none ks = .error .assertion) ∧
    ((∃ k ∈ live ks, fate dims k = .broken) →
      ∃ e, script N B (.list (dims.map Int.ofNat)) init none ks = .error e) ∧
    (.measureAll ∈ ks → (∀ k ∈ live ks, fate dims k ≠ .broken) →
      script N B (.list (dims.map Int.ofNat)) init none ks =
        .ok (shown dims (((live ks).filter fun k => fate dims k = .applied).foldl
          (fun ψ k => meaning N dims k ψ) (basis (startLevels dims init))))) :=
  ⟨script_unmeasured hN hB hne h none ks hreg, script_broken hN hB hne h none ks hreg,
    script_ok hN hB hne h none ks hreg (by simp)⟩

/-- The hypotheses of C01 are met: a qubit, a qutrit and a qubit, with gates that share layers. -/
example {B : Backend ℤ} (hB : B.Lawful) :
    script sampleN B (.list [2, 3, 2]) [1, -1] none
      ([.x 0 none 1, .h 1 none, .cx 2 0 1, .z 2 none, .toffoli [0, 1] 2 1] ++ [.measureAll]) =
    .ok (shown [2, 3, 2] ([.x 0 none 1, .h 1 none, .cx 2 0 1, .z 2 none, .toffoli [0, 1] 2 1].foldl
      (fun ψ k => meaning sampleN [2, 3, 2] k ψ) (basis [1, 2, 0]))) := by
  apply C01_run_sequential sampleN_sized hB (dims := [2, 3, 2]) (by simp)
  · exact validStart_of rfl
  · intro k hk
    fin_cases hk <;>
      simp [Call.Valid, InRange, DimOK, spanOf]

omit [StarRing R] [Nontrivial R] in
theorem shown_congr {dims : List Nat} {ψ φ : State R} (h : EqOn dims ψ φ) :
    (Except.ok (shown dims ψ) : PyM _) = .ok (shown dims φ) := by
  rw [shown, shown, outcome_congr h]

/-! ### C02 -/

/-- Level arithmetic of the classical calls. -/
def classicalStep (dims : List Nat) : Call R → List Nat → List Nat
  | .x q _ p => bump dims q.toNat p
  | .cx c t p => controlled dims [c.toNat] t.toNat p
  | .toffoli cs t p => controlled dims (cs.map Int.toNat) t.toNat p
  | _ => id

/-- `x`, `cx` or `toffoli`. -/
def Call.Classical : Call R → Prop
  | .x .. | .cx .. | .toffoli .. => True
  | _ => False

omit [Nontrivial R] in
theorem classical_step {N : Numerics R} {dims : List Nat} {k : Call R} (hv : k.Valid dims)
    (hc : k.Classical) {s : List Nat} (hs : Fits dims s) :
    Fits dims (classicalStep dims k s) ∧ meaning N dims k (basis s) = basis (classicalStep dims k s) := by
  cases k with
  | x q k p =>
    have := hv.1.1
    have := hv.1.2
    exact ⟨fits_bump hs _ (by omega) p, move_basis hs _⟩
  | cx c t p =>
    have := hv.2.1
    have := hv.2.2
    exact ⟨fits_controlled hs _ _ (by omega) p, move_basis hs _⟩
  | toffoli cs t p =>
    have := hv.1.1
    have := hv.1.2
    exact ⟨fits_controlled hs _ _ (by omega) p, move_basis hs _⟩
  | h => exact hc.elim
  | z => exact hc.elim
  | gate => exact hc.elim
  | measure => exact hc.elim
  | measureAll => exact hc.elim

omit [Nontrivial R] in
theorem classical_fold {N : Numerics R} {dims : List Nat} (ks : List (Call R)) (hv : ∀ k ∈ ks, k.Valid dims)
    (hc : ∀ k ∈ ks, k.Classical) {s : List Nat} (hs : Fits dims s) :
    Fits dims (ks.foldl (fun s k => classicalStep dims k s) s) ∧
      ks.foldl (fun ψ k => meaning N dims k ψ) (basis s)
        = basis (ks.foldl (fun s k => classicalStep dims k s) s) := by
  induction ks generalizing s with
  | nil => exact ⟨hs, rfl⟩
  | cons k ks ih =>
    obtain ⟨h1, h2⟩ := classical_step (N := N) (hv k (by simp)) (hc k (by simp)) hs
    simp only [List.foldl_cons]
    rw [h2]
    exact ih (fun k hk => hv k (by simp [hk])) (fun k hk => hc k (by simp [hk])) h1

omit [StarRing R] in
theorem outcome_basis {dims s : List Nat} (hs : Fits dims s) :
    outcome dims (basis s : State R) = [(s, 1)] := by
  unfold outcome
  have h1 : (states dims).filter (fun t => (basis s : State R) t ≠ 0) = (states dims).filter fun t => t == s := by
    apply List.filter_congr
    intro t _
    unfold basis
    by_cases e : t = s <;> simp [e]
  rw [h1, List.filter_beq, List.count_eq_one_of_mem (nodup_states dims) (mem_states.2 hs)]
  simp [basis]

omit [CommRing R] [StarRing R] [DecidableEq R] [UnitaryCheck R] [Nontrivial R] in
theorem startLevels_fits {dims : List Nat} {init : List Int} (h : ValidStart (dims.map Int.ofNat) init) :
    Fits dims (startLevels dims init) := by
  refine ⟨by simp [startLevels], ?_⟩
  intro i h1 h2
  simp only [startLevels, List.getElem_map, List.getElem_range]
  have h3 := (validStart_getD h h2).1
  have h4 : dims.getD i 0 = dims[i] := by simp [List.getD_eq_getElem?_getD, h2]
  rw [h4] at h3 ⊢
  exact emod_toNat_lt _ (by omega)

/-- **C02.** A circuit of `x`, `cx` and `toffoli` calls has exactly one outcome, with amplitude 1: the
initial levels with the increments carried out, modulo the register dimensions. -/
theorem C02_classical_single_outcome {N : Numerics R} (hN : N.Sized) {B : Backend R} (hB : B.Lawful)
    {dims : List Nat} (hne : dims ≠ []) {init : List Int} (h : ValidStart (dims.map Int.ofNat) init)
    {ks : List (Call R)} (hks : ∀ k ∈ ks, k.Valid dims) (hc : ∀ k ∈ ks, k.Classical) :
    script N B (.list (dims.map Int.ofNat)) init none (ks ++ [.measureAll]) =
      .ok [(.str (label (ks.foldl (fun s k => classicalStep dims k s) (startLevels dims init))), 1)] := by
  rw [C01_run_sequential hN hB hne h hks]
  obtain ⟨h1, h2⟩ := classical_fold (N := N) ks hks hc (startLevels_fits h)
  rw [h2, shown, outcome_basis h1]
  rfl

/-- A ripple of increments on a qutrit, a qubit and a ququart, from levels 2, 1, 3. -/
example {B : Backend ℤ} (hB : B.Lawful) :
    script sampleN B (.list [3, 2, 4]) [2, 1, 3] none
      ([.toffoli [0, 1] 2 1, .cx 0 1 (-3), .x 0 none 1] ++ [.measureAll]) =
    .ok [(.str "|000>".toList, 1)] := by
  rw [show (.list [3, 2, 4] : RegsArg) = .list ([3, 2, 4].map Int.ofNat) from rfl,
    C02_classical_single_outcome sampleN_sized hB (by simp)]
  · rfl
  · exact validStart_of rfl
  · intro k hk
    fin_cases hk <;> simp [Call.Valid, InRange, DimOK, spanOf]
  · intro k hk
    fin_cases hk <;> trivial

/-! ### C24 -/

omit [Nontrivial R] in
/-- **C24.** Whatever the circuit (even one that cannot be run), all backends that represent
matrices faithfully give the same result or the same exception. -/
theorem C24_backend_independent (N : Numerics R) {B B' : Backend R} (hB : B.Lawful) (hB' : B'.Lawful)
    (qregs : RegsArg) (init : List Int) (out : Option Output) (ks : List (Call R)) :
    script N B qregs init out ks = script N B' qregs init out ks := by
  unfold script
  cases Circuit.new (R := R) qregs init out with
  | error e => rfl
  | ok c =>
    change (Circuit.run N B (c.calls ks)).2 = (Circuit.run N B' (c.calls ks)).2
    have : ∀ B : Backend R, (Circuit.run N B (c.calls ks)).2 = Circuit.runResult N B (c.calls ks) := by
      intro B
      unfold Circuit.run
      cases Circuit.runResult N B (c.calls ks) <;> rfl
    rw [this, this, runResult_backend hB, runResult_backend hB']

omit [Nontrivial R] in
/-- **C24** for the dense and the coordinate-list sparse backend. -/
theorem C24_numpy_eq_sparse (N : Numerics R) (qregs : RegsArg) (init : List Int) (out : Option Output)
    (ks : List (Call R)) :
    script N (numpyBackend R) qregs init out ks = script N (sparseBackend R) qregs init out ks :=
  C24_backend_independent N numpy_lawful sparse_lawful qregs init out ks

/-! ### C25 -/

omit [Nontrivial R] in
theorem fold_eqOn {N : Numerics R} {dims : List Nat} (ks : List (Call R)) (hv : ∀ k ∈ ks, k.Valid dims)
    {ψ φ : State R} (h : EqOn dims ψ φ) :
    EqOn dims (ks.foldl (fun ψ k => meaning N dims k ψ) ψ) (ks.foldl (fun ψ k => meaning N dims k ψ) φ) := by
  induction ks generalizing ψ φ with
  | nil => exact h
  | cons k ks ih =>
    exact ih (fun k hk => hv k (by simp [hk])) ((meaning_local N (hv k (by simp))).congr h)

/-- **C25.** Exchanging two adjacent calls that touch no common register does not change the result
of `run()`. -/
theorem C25_disjoint_calls_commute {N : Numerics R} (hN : N.Sized) {B : Backend R} (hB : B.Lawful)
    {dims : List Nat} (hne : dims ≠ []) {init : List Int} {out : Option Output} (h : ValidStart (dims.map Int.ofNat) init)
    {pre post : List (Call R)} {a b : Call R} (hpre : ∀ k ∈ pre, k.Valid dims)
    (hpost : ∀ k ∈ post, k.Valid dims) (ha : a.Valid dims) (hb : b.Valid dims)
    (hdis : ∀ r, ¬ (a.touches r ∧ b.touches r)) :
    script N B (.list (dims.map Int.ofNat)) init out (pre ++ a :: b :: post ++ [.measureAll]) =
      script N B (.list (dims.map Int.ofNat)) init out (pre ++ b :: a :: post ++ [.measureAll]) := by
  have v : ∀ {x y : Call R}, x.Valid dims → y.Valid dims → ∀ k ∈ pre ++ x :: y :: post, k.Valid dims := by
    intro x y hx hy k hk
    simp only [List.mem_append, List.mem_cons] at hk
    rcases hk with hk | rfl | rfl | hk
    · exact hpre k hk
    · exact hx
    · exact hy
    · exact hpost k hk
  refine script_congr hN hB hne h h out (v ha hb) (v hb ha) ?_ [] []
  unfold stateAfter
  rw [List.foldl_append, List.foldl_append]
  apply fold_eqOn post hpost
  exact (meaning_local N hb).comm (meaning_local N ha) (fun r h1 h2 => hdis r ⟨h2, h1⟩) _

/-- A gate between the two registers of a `cx` commutes with it. -/
example {B : Backend ℤ} (hB : B.Lawful) :
    script sampleN B (.list [2, 3, 2]) [1] none ([.x 0 none 1] ++ .cx 0 2 1 :: .h 1 none :: [] ++ [.measureAll]) =
    script sampleN B (.list [2, 3, 2]) [1] none ([.x 0 none 1] ++ .h 1 none :: .cx 0 2 1 :: [] ++ [.measureAll]) := by
  apply C25_disjoint_calls_commute sampleN_sized hB (dims := [2, 3, 2]) (by simp)
  · exact validStart_of rfl
  · simp [Call.Valid, InRange, DimOK]
  · simp
  · simp [Call.Valid, InRange]
  · simp [Call.Valid, InRange, DimOK]
  · intro r
    simp only [Call.touches]
    omega

/-! ### C36 -/

/-- The call with the opposite increment. -/
def Call.undo : Call R → Call R
  | .x q k p => .x q k (-p)
  | .cx c t p => .cx c t (-p)
  | .toffoli cs t p => .toffoli cs t (-p)
  | k => k

/-- **C36.** `x`, `cx` (on two different registers) or `toffoli` followed by the same call with the
opposite increment leaves the result of `run()` as if neither had been made. -/
theorem C36_opposite_increment_undoes {N : Numerics R} (hN : N.Sized) {B : Backend R} (hB : B.Lawful)
    {dims : List Nat} (hne : dims ≠ []) {init : List Int} {out : Option Output} (h : ValidStart (dims.map Int.ofNat) init)
    {pre post : List (Call R)} {a : Call R} (hpre : ∀ k ∈ pre, k.Valid dims)
    (hpost : ∀ k ∈ post, k.Valid dims) (ha : a.Valid dims) (hu : a.undo.Valid dims) (hc : a.Classical)
    (hct : ∀ q p, a ≠ .cx q q p) :
    script N B (.list (dims.map Int.ofNat)) init out (pre ++ a :: a.undo :: post ++ [.measureAll]) =
      script N B (.list (dims.map Int.ofNat)) init out (pre ++ post ++ [.measureAll]) := by
  have v : ∀ k ∈ pre ++ a :: a.undo :: post, k.Valid dims := by
    intro k hk
    simp only [List.mem_append, List.mem_cons] at hk
    rcases hk with hk | rfl | rfl | hk
    · exact hpre k hk
    · exact ha
    · exact hu
    · exact hpost k hk
  refine script_congr hN hB hne h h out v (ks' := pre ++ post) (by
    intro k hk
    rcases List.mem_append.1 hk with hk | hk
    · exact hpre k hk
    · exact hpost k hk) ?_ [] []
  unfold stateAfter
  rw [List.foldl_append, List.foldl_append]
  apply fold_eqOn post hpost
  cases a with
  | x q k p =>
    have := ha.1.1
    have := ha.1.2
    have hq : q.toNat < dims.length := by omega
    simp only [List.foldl_cons, meaning, Call.undo]
    rw [move_move fun s hs => fits_bump hs _ hq p]
    exact move_id (fun s hs => bump_neg hs hq p) _
  | cx c t p =>
    have := ha.2.1
    have := ha.2.2
    have hct' : c ≠ t := by rintro rfl; exact hct c p rfl
    have ht : t.toNat < dims.length := by omega
    have hn : t.toNat ∉ [c.toNat] := by
      have := ha.1.1
      simp only [List.mem_singleton]
      omega
    simp only [List.foldl_cons, meaning, Call.undo]
    rw [move_move fun s hs => fits_controlled hs _ _ ht p]
    exact move_id (fun s hs => controlled_neg hs ht hn p) _
  | toffoli cs t p =>
    have := ha.1.1
    have := ha.1.2
    have ht : t.toNat < dims.length := by omega
    have hn : t.toNat ∉ cs.map Int.toNat := by
      intro hm
      obtain ⟨c, hc1, hc2⟩ := List.mem_map.1 hm
      have := (ha.2.1 c hc1).1
      exact ha.2.2.1 (by rwa [show t = c by omega])
    simp only [List.foldl_cons, meaning, Call.undo]
    rw [move_move fun s hs => fits_controlled hs _ _ ht p]
    exact move_id (fun s hs => controlled_neg hs ht hn p) _
  | h => exact hc.elim
  | z => exact hc.elim
  | gate => exact hc.elim
  | measure => exact hc.elim
  | measureAll => exact hc.elim

example {B : Backend ℤ} (hB : B.Lawful) :
    script sampleN B (.list [3, 2, 4]) [2] none
      ([.h 0 none] ++ .toffoli [0, 1] 2 7 :: Call.undo (.toffoli [0, 1] 2 7) :: [.z 2 none] ++ [.measureAll]) =
    script sampleN B (.list [3, 2, 4]) [2] none ([.h 0 none] ++ [.z 2 none] ++ [.measureAll]) := by
  apply C36_opposite_increment_undoes sampleN_sized hB (dims := [3, 2, 4]) (by simp)
  · exact validStart_of rfl
  all_goals simp [Call.Valid, InRange, DimOK, spanOf, Call.undo, Call.Classical]

end QuDiet
