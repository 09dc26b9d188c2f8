import Verif.Props.Numeric

/-! # C08–C10, C13, C43: phases and probabilities -/

namespace QuDiet
open Spec

variable [UnitaryCheck ℂ] {N : Numerics ℂ}

/-! ### C10 -/

/-- The gate calls that are unitary: all but `h` on registers of dimension other than 2 and 3, `cx` with
equal control and target, and custom gates with a matrix that is only almost unitary. -/
def Call.Unitary (dims : List Nat) : Call ℂ → Prop
  | .h q _ => dims.getD q.toNat 0 = 2 ∨ dims.getD q.toNat 0 = 3
  | .cx c t _ => c ≠ t
  | .gate U _ _ => U.Unitary
  | _ => True

theorem hadamard_columns (hN : N.Exact) {d : Nat} (hd : d = 2 ∨ d = 3) :
    Columns d (hadamard (N.roots d) (N.invSqrt d) d) := by
  rcases hd with rfl | rfl
  · exact hadamard_columns_two hN
  · exact hadamard_columns_three hN

theorem phases_columns (hN : N.Exact) (d : Nat) : Columns d (phases (N.roots d)) := by
  intro a ha b hb
  unfold phases
  rw [map_congr_sum (g := fun i => if a = i then (if a = b then (1 : ℂ) else 0) else 0) (by
    intro i hi
    have hi := List.mem_range.1 hi
    by_cases h1 : i = a
    · subst h1
      by_cases h2 : i = b
      · subst h2
        simp only [if_true]
        exact hN.root_star hi
      · simp [h2]
    · simp [h1, Ne.symm h1]),
    sum_ite_eq _ List.nodup_range a (List.mem_range.2 ha) (fun _ => if a = b then (1 : ℂ) else 0)]

theorem agree_controlled {dims s cs : List Nat} {t : Nat} {p : Int} {S : Nat → Prop} (h : ∀ r, S r → t ≠ r) :
    Agree S (controlled dims cs t p s) s := by
  intro r hr
  unfold controlled
  split
  · unfold bump
    exact getD_set_ne (h r hr)
  · rfl

/-- The calls whose matrices have orthonormal columns. -/
def Call.Isometric (N : Numerics ℂ) (dims : List Nat) : Call ℂ → Prop
  | .h q _ => Columns (dims.getD q.toNat 0)
      (hadamard (N.roots (dims.getD q.toNat 0)) (N.invSqrt (dims.getD q.toNat 0)) (dims.getD q.toNat 0))
  | .cx c t _ => c ≠ t
  | .gate U _ _ => U.Unitary
  | _ => True

theorem Call.Unitary.isometric (hN : N.Exact) {dims : List Nat} {k : Call ℂ} (hu : k.Unitary dims) :
    k.Isometric N dims := by
  cases k with
  | h q k => exact hadamard_columns hN hu
  | cx c t p => exact hu
  | gate U q k => exact hu
  | _ => trivial

/-- A unitary call preserves every weighted norm whose weights do not look at the registers touched. -/
theorem weigh_meaning (hN : N.Exact) {dims : List Nat} {k : Call ℂ} (hv : k.Valid dims)
    (hu : k.Isometric N dims) {W : List Nat → ℂ}
    (hW : ∀ s t, Fits dims s → Fits dims t → Agree (fun r => ¬ k.touches r) s t → W s = W t) (ψ : State ℂ) :
    weigh W dims (meaning N dims k ψ) = weigh W dims ψ := by
  cases k with
  | h q k =>
    have hq := hv.1
    have hlt : q.toNat < dims.length := by have := hq.1; have := hq.2; omega
    refine weigh_onReg hlt hu (fun s t hs ht ha => hW s t hs ht fun r hr => ha r ?_) ψ
    exact fun e => hr ((toNat_eq_iff hq r).1 e)
  | z q k =>
    have hq := hv.1
    have hlt : q.toNat < dims.length := by have := hq.1; have := hq.2; omega
    refine weigh_onReg hlt (phases_columns hN _) (fun s t hs ht ha => hW s t hs ht fun r hr => ha r ?_) ψ
    exact fun e => hr ((toNat_eq_iff hq r).1 e)
  | x q k p =>
    have hq := hv.1
    have hlt : q.toNat < dims.length := by have := hq.1; have := hq.2; omega
    refine weigh_move (fun s hs => fits_bump hs _ hlt p) (fun s t hs ht e => bump_inj hs ht hlt e) ?_ ψ
    intro s hs
    refine hW _ _ (fits_bump hs _ hlt p) hs ?_
    rw [bump_eq_controlled]
    exact agree_controlled fun r hr e => hr ((toNat_eq_iff hq r).1 e)
  | cx c t p =>
    have hq := hv.2
    have hc := hv.1
    have hlt : t.toNat < dims.length := by have := hq.1; have := hq.2; omega
    have hct : t.toNat ∉ [c.toNat] := by
      have := hq.1; have := hc.1
      have hne : c ≠ t := hu
      simp only [List.mem_singleton]
      omega
    refine weigh_move (fun s hs => fits_controlled hs _ _ hlt p)
      (fun s t hs ht e => controlled_inj hs ht hlt hct e) ?_ ψ
    intro s hs
    refine hW _ _ (fits_controlled hs _ _ hlt p) hs ?_
    exact agree_controlled fun r hr e => hr (.inr ((toNat_eq_iff hq r).1 e))
  | toffoli cs t p =>
    have hq := hv.1
    have hc := hv.2.1
    have hlt : t.toNat < dims.length := by have := hq.1; have := hq.2; omega
    have hct : t.toNat ∉ cs.map Int.toNat := by
      rw [List.mem_map]
      rintro ⟨a, ha, e⟩
      have := (hc a ha).1
      have := hq.1
      have : a = t := by omega
      exact hv.2.2.1 (this ▸ ha)
    refine weigh_move (fun s hs => fits_controlled hs _ _ hlt p)
      (fun s t hs ht e => controlled_inj hs ht hlt hct e) ?_ ψ
    intro s hs
    refine hW _ _ (fits_controlled hs _ _ hlt p) hs ?_
    exact agree_controlled fun r hr e => hr (.inr ((toNat_eq_iff hq r).1 e))
  | gate U q k =>
    cases q with
    | int q =>
      obtain ⟨hq, _, hU, hr, hc⟩ := hv
      have hlt : q.toNat < dims.length := by have := hq.1; have := hq.2; omega
      refine weigh_onReg hlt (columns_of_unitary hu hr hc)
        (fun s t hs ht ha => hW s t hs ht fun r hr => ha r ?_) ψ
      exact fun e => hr ((toNat_eq_iff hq r).1 e)
    | list qs =>
      obtain ⟨h1, h3, h4, h5, hU, hr, hc⟩ := hv
      obtain ⟨hle, hin⟩ := span_in h1 h3
      refine weigh_onBlock hle (columns_of_unitary hu hr hc)
        (fun s t hs ht ha => hW s t hs ht fun r hr => ha r ?_) ψ
      exact fun e => hr ((hin r).1 e)
  | measure q => exact hv.elim
  | measureAll => exact hv.elim

theorem weigh_after (hN : N.Exact) {dims : List Nat} {ks : List (Call ℂ)}
    (hv : ∀ k ∈ ks, k.Valid dims) (hu : ∀ k ∈ ks, k.Isometric N dims) (ψ : State ℂ) :
    weigh (fun _ => 1) dims (ks.foldl (fun ψ k => meaning N dims k ψ) ψ) = weigh (fun _ => 1) dims ψ := by
  induction ks generalizing ψ with
  | nil => rfl
  | cons k ks ih =>
    rw [List.foldl_cons, ih (fun k hk => hv k (by simp [hk])) (fun k hk => hu k (by simp [hk])),
      weigh_meaning hN (hv k (by simp)) (hu k (by simp)) (fun _ _ _ _ _ => rfl)]

/-- **C10.** For every valid circuit of unitary calls (see `Call.Unitary`), `run()` returns amplitudes
whose squared moduli sum to one. -/
theorem C10_total_probability_one (hN : N.Exact) {B : Backend ℂ} (hB : B.Lawful)
    {dims : List Nat} (hne : dims ≠ []) {init : List Int} (h : ValidStart (dims.map Int.ofNat) init)
    {ks : List (Call ℂ)} (hks : ∀ k ∈ ks, k.Valid dims) (hu : ∀ k ∈ ks, k.Unitary dims) :
    ∃ r, script N B (.list (dims.map Int.ofNat)) init none (ks ++ [.measureAll]) = .ok r ∧ total r = 1 := by
  refine ⟨_, script_valid hN.sized hB hne h (out := none) (by simp) hks [], ?_⟩
  have := total_listing (o := format dims none) rfl dims (stateAfter N dims init ks)
  rw [stateAfter, weigh_after hN hks (fun k hk => (hu k hk).isometric hN), weigh_basis (startLevels_fits h)] at this
  exact_mod_cast this

/-- The hypotheses of `C10_total_probability_one` are met by a circuit with every kind of gate. -/
example (hN : N.Exact) :=
  C10_total_probability_one hN numpy_lawful (dims := [2, 3, 4, 2]) (by decide) (init := [1, 0, 3]) (validStart_of rfl)
    (ks := [.h 0 none, .h 1 (some 3), .z 2 none, .cx 0 2 3, .toffoli [0, 1] 3 1, .x 2 none (-1)])
    (by simp [Call.Valid, InRange, DimOK, spanOf]) (by simp [Call.Unitary])

/-! ### C43 -/

/-- **C43.** Adding a unitary call to a circuit does not change the probability of any event `E` about
registers that the call does not touch. -/
theorem C43_no_signalling (hN : N.Exact) {B : Backend ℂ} (hB : B.Lawful)
    {dims : List Nat} (hne : dims ≠ []) {init : List Int} (h : ValidStart (dims.map Int.ofNat) init)
    {pre : List (Call ℂ)} (hpre : ∀ k ∈ pre, k.Valid dims) {k : Call ℂ} (hk : k.Valid dims) (hu : k.Unitary dims)
    {E : List Nat → Prop} [DecidablePred E]
    (hE : ∀ s t : List Nat, (∀ r, ¬ k.touches r → s.getD r 0 = t.getD r 0) → (E s ↔ E t)) :
    ∃ a b, script N B (.list (dims.map Int.ofNat)) init (some ⟨dims, .state, .amplitude⟩) (pre ++ [.measureAll])
        = .ok a ∧
      script N B (.list (dims.map Int.ofNat)) init (some ⟨dims, .state, .amplitude⟩) (pre ++ [k, .measureAll])
        = .ok b ∧
      chance E b = chance E a := by
  obtain ⟨h1, h2⟩ := one_more hN.sized hB hne h (out := some ⟨dims, .state, .amplitude⟩) (by simp) hpre hk
  refine ⟨_, _, h1, h2, ?_⟩
  have e1 := chance_listing (o := format dims (some ⟨dims, .state, .amplitude⟩)) rfl rfl dims
    (stateAfter N dims init pre) E
  have e2 := chance_listing (o := format dims (some ⟨dims, .state, .amplitude⟩)) rfl rfl dims
    (meaning N dims k (stateAfter N dims init pre)) E
  rw [weigh_meaning hN hk (hu.isometric hN), ← e1] at e2
  · exact_mod_cast e2
  · intro s t _ _ ha
    have := hE s t ha
    by_cases hs : E s
    · rw [if_pos hs, if_pos (this.1 hs)]
    · rw [if_neg hs, if_neg fun ht => hs (this.2 ht)]

/-- The hypotheses of `C43_no_signalling`: a Toffoli gate does not change the chance that register 1,
which is not one of its registers, is at level 2. -/
example (hN : N.Exact) :=
  C43_no_signalling hN numpy_lawful (dims := [2, 3, 4, 2]) (by decide) (init := []) (validStart_of rfl)
    (pre := [.h 0 none, .h 1 none, .cx 0 1 1]) (by simp [Call.Valid, InRange, DimOK])
    (k := .toffoli [0, 2] 3 1) (by simp [Call.Valid, InRange, spanOf]) trivial
    (E := fun s => s.getD 1 0 = 2) (by
      intro s t h
      rw [h 1 (by simp [Call.touches])])

/-! ### C09 -/

theorem onReg_phases {dims s : List Nat} (hs : Fits dims s) {q : Nat} (hq : q < dims.length) (r : List ℂ)
    (ψ : State ℂ) : onReg (dims.getD q 0) q (phases r) ψ s = r.getD (s.getD q 0) 0 * ψ s := by
  have hl : q < s.length := by rw [hs.1]; exact hq
  have := fits_getD_lt hs q hq
  unfold onReg phases
  rw [map_congr_sum (g := fun k => if s.getD q 0 = k then r.getD (s.getD q 0) 0 * ψ (s.set q k) else 0) (by
    intro k _
    split <;> simp),
    sum_ite_eq _ List.nodup_range _ (List.mem_range.2 this) (fun k => r.getD (s.getD q 0) 0 * ψ (s.set q k)),
    set_getD_self hl]

theorem outcome_scale {R : Type} [CommRing R] [DecidableEq R] {dims : List Nat} {ψ φ : State R}
    {c : List Nat → R} (h : ∀ s, Fits dims s → φ s = c s * ψ s) (h0 : ∀ s, Fits dims s → c s * ψ s = 0 → ψ s = 0) :
    outcome dims φ = (outcome dims ψ).map fun e => (e.1, c e.1 * e.2) := by
  unfold outcome
  rw [List.map_map]
  have e1 : (states dims).filter (fun s => decide (φ s ≠ 0)) = (states dims).filter (fun s => decide (ψ s ≠ 0)) := by
    apply List.filter_congr
    intro s hs
    have hs := mem_states.1 hs
    rw [h s hs]
    by_cases hz : ψ s = 0
    · simp [hz]
    · have h1 : c s * ψ s ≠ 0 := fun h => hz (h0 s hs h)
      rw [decide_eq_true hz, decide_eq_true h1]
  rw [e1]
  apply List.map_congr_left
  intro s hs
  simp only [Function.comp, h s (mem_states.1 (List.mem_filter.1 hs).1)]

/-- The level of register `q` in a key. -/
def keyLevel : Key → Nat → Nat
  | .tup s, q => s.getD q 0
  | .str _, _ => 0

/-- **C09.** `z(q)` keeps the outcomes of the circuit and multiplies each amplitude by a `d`-th root of
unity (of modulus 1) that depends on the level of `q` only. The `d` phases are different; the level with
phase 1 is `d - 1`, and level 0 has another phase. -/
theorem C09_z_phases (hN : N.Exact) {d : Nat} (hd : 2 ≤ d) :
    ∃ phase : Nat → ℂ, (∀ l < d, phase l ^ d = 1 ∧ Complex.normSq (phase l) = 1) ∧
      (∀ l < d, ∀ l' < d, phase l = phase l' → l = l') ∧ phase (d - 1) = 1 ∧ phase 0 ≠ 1 ∧
      ∀ {B : Backend ℂ}, B.Lawful → ∀ {dims : List Nat}, dims ≠ [] →
      ∀ {init : List Int}, ValidStart (dims.map Int.ofNat) init →
      ∀ {pre : List (Call ℂ)}, (∀ k ∈ pre, k.Valid dims) → ∀ {q : Nat}, q < dims.length → dims.getD q 0 = d →
      ∃ r, script N B (.list (dims.map Int.ofNat)) init (some ⟨dims, .state, .amplitude⟩) (pre ++ [.measureAll])
          = .ok r ∧
        script N B (.list (dims.map Int.ofNat)) init (some ⟨dims, .state, .amplitude⟩)
            (pre ++ [.z q none, .measureAll])
          = .ok (r.map fun e => (e.1, phase (keyLevel e.1 q) * e.2)) := by
  have hns : ∀ l < d, Complex.normSq ((N.roots d).getD l 0) = 1 := by
    intro l hl
    have := hN.root_star hl
    rw [← normSq_ofReal] at this
    exact_mod_cast this
  refine ⟨fun l => (N.roots d).getD l 0, fun l hl => ⟨hN.root hl, hns l hl⟩,
    fun l hl l' hl' e => hN.root_inj hl hl' e, hN.root_last (by omega), hN.root_ne_one (by omega), ?_⟩
  intro B hB dims hne init h pre hpre q hq hdq
  have hv : (Call.z (R := ℂ) q none).Valid dims := ⟨⟨by omega, by omega⟩, .inl rfl⟩
  obtain ⟨h1, h2⟩ := one_more hN.sized hB hne h (out := some ⟨dims, .state, .amplitude⟩) (by simp) hpre hv
  refine ⟨_, h1, ?_⟩
  rw [h2]
  congr 1
  generalize stateAfter N dims init pre = ψ
  have hz : ∀ s, Fits dims s → (N.roots d).getD (s.getD q 0) 0 ≠ 0 := by
    intro s hs h0
    have hlt := fits_getD_lt hs q hq
    rw [hdq] at hlt
    have := hns _ hlt
    rw [h0, map_zero] at this
    exact absurd this (by norm_num)
  simp only [meaning, Int.toNat_natCast, listing]
  rw [outcome_scale (ψ := ψ) (c := fun s => (N.roots d).getD (s.getD q 0) 0), List.map_map, List.map_map]
  · apply List.map_congr_left
    intro e _
    rfl
  · intro s hs
    rw [onReg_phases hs hq, hdq]
  · intro s hs h0
    exact (mul_eq_zero.1 h0).resolve_left (hz s hs)

/-- **C09.** `d` applications of `z` to a register of dimension `d` do nothing. -/
theorem C09_z_order (hN : N.Exact) {B : Backend ℂ} (hB : B.Lawful)
    {dims : List Nat} (hne : dims ≠ []) {init : List Int} {out : Option Output} (h : ValidStart (dims.map Int.ofNat) init)
    {pre post : List (Call ℂ)} (hpre : ∀ k ∈ pre, k.Valid dims) (hpost : ∀ k ∈ post, k.Valid dims)
    {q : Nat} (hq : q < dims.length) :
    script N B (.list (dims.map Int.ofNat)) init out
        (pre ++ List.replicate (dims.getD q 0) (.z q none) ++ post ++ [.measureAll]) =
      script N B (.list (dims.map Int.ofNat)) init out (pre ++ post ++ [.measureAll]) := by
  have hv : (Call.z (R := ℂ) q none).Valid dims := ⟨⟨by omega, by omega⟩, .inl rfl⟩
  apply drop_calls hN hB hne h hpre _ hpost
  · intro ψ
    have : ∀ n ψ, EqOn dims ((List.replicate n (.z q none)).foldl (fun ψ k => meaning N dims k ψ) ψ)
        (fun s => (N.roots (dims.getD q 0)).getD (s.getD q 0) 0 ^ n * ψ s) := by
      intro n
      induction n with
      | zero => intro ψ s _; simp
      | succ n ih =>
        intro ψ s hs
        rw [List.replicate_succ, List.foldl_cons, ih _ s hs]
        simp only [meaning, Int.toNat_natCast]
        rw [onReg_phases hs hq]
        ring
    intro s hs
    rw [this _ ψ s hs]
    simp only []
    rw [hN.root (fits_getD_lt hs q hq), one_mul]
  · intro k hk
    rw [List.eq_of_mem_replicate hk]
    exact hv

/-- The hypotheses of the `C09` theorems. -/
example (hN : N.Exact) :=
  C09_z_order (out := none) hN numpy_lawful (dims := [2, 5]) (by decide) (init := [0, 3]) (validStart_of rfl)
    (pre := [.h 1 none]) (post := [.h 1 none]) (by simp [Call.Valid, InRange, DimOK])
    (by simp [Call.Valid, InRange, DimOK]) (q := 1) (by decide)

/-! ### C13 -/

/-- **C13.** `OutputMethod.probability` shows the squares of the amplitudes. -/
theorem C13_probability_is_square {R : Type} [CommRing R] [StarRing R] [DecidableEq R] [UnitaryCheck R] [Nontrivial R]
    {N : Numerics R} (hN : N.Sized) {B : Backend R} (hB : B.Lawful)
    {dims : List Nat} (hne : dims ≠ []) {init : List Int} (h : ValidStart (dims.map Int.ofNat) init)
    (ty : OutputType) {ks : List (Call R)} (hks : ∀ k ∈ ks, k.Valid dims) :
    ∃ r, script N B (.list (dims.map Int.ofNat)) init (some ⟨dims, ty, .amplitude⟩) (ks ++ [.measureAll]) = .ok r ∧
      script N B (.list (dims.map Int.ofNat)) init (some ⟨dims, ty, .probability⟩) (ks ++ [.measureAll])
        = .ok (r.map fun e => (e.1, e.2 ^ 2)) := by
  refine ⟨_, script_valid hN hB hne h (by simp) hks [], ?_⟩
  rw [script_valid hN hB hne h (by simp) hks []]
  congr 1
  simp only [listing, List.map_map]
  apply List.map_congr_left
  intro e _
  cases ty <;> rfl

/-- **C13.** When all amplitudes are real, the values shown by `OutputMethod.probability` are real,
non-negative, and sum to one. -/
theorem C13_real_probabilities (hN : N.Exact) {B : Backend ℂ} (hB : B.Lawful)
    {dims : List Nat} (hne : dims ≠ []) {init : List Int} (h : ValidStart (dims.map Int.ofNat) init)
    (ty : OutputType) {ks : List (Call ℂ)} (hks : ∀ k ∈ ks, k.Valid dims) (hu : ∀ k ∈ ks, k.Unitary dims)
    (hreal : ∀ s, Fits dims s → (stateAfter N dims init ks s).im = 0) :
    ∃ r, script N B (.list (dims.map Int.ofNat)) init (some ⟨dims, ty, .probability⟩) (ks ++ [.measureAll]) = .ok r ∧
      (∀ e ∈ r, e.2.im = 0 ∧ 0 ≤ e.2.re) ∧ (r.map fun e => e.2).sum = 1 := by
  refine ⟨_, script_valid hN.sized hB hne h (by simp) hks [], ?_, ?_⟩
  · intro e he
    simp only [listing, outcome, List.map_map, List.mem_map, List.mem_filter] at he
    obtain ⟨s, ⟨hs, _⟩, rfl⟩ := he
    have := hreal s (mem_states.1 hs)
    simp only [Function.comp, format, Option.getD_some, Output.val, pow_two, Complex.mul_im, Complex.mul_re, this]
    exact ⟨by ring, by nlinarith [mul_self_nonneg (stateAfter N dims init ks s).re]⟩
  · have hw := weigh_after hN hks (fun k hk => (hu k hk).isometric hN) (basis (startLevels dims init))
    rw [weigh_basis (startLevels_fits h)] at hw
    rw [← hw]
    unfold weigh listing outcome
    rw [List.map_map, List.map_map, ← sum_ite_zero]
    apply map_congr_sum
    intro s hs
    have hr := hreal s (mem_states.1 hs)
    change (if stateAfter N dims init ks s ≠ 0 then _ else 0) = _ * (stateAfter N dims init ks s * star (stateAfter N dims init ks s))
    by_cases h0 : stateAfter N dims init ks s = 0
    · simp [h0]
    · have hst : star (stateAfter N dims init ks s) = stateAfter N dims init ks s := by
        apply Complex.ext
        · simp
        · simp [hr]
      rw [if_pos h0, hst]
      simp only [Function.comp, format, Option.getD_some, Output.val]
      ring

/-- A circuit with real amplitudes. -/
example (hN : N.Exact) :=
  C13_real_probabilities hN numpy_lawful (dims := [2, 3]) (by decide) (init := []) (validStart_of rfl) .print
    (ks := [.x 0 none 1]) (by simp [Call.Valid, InRange, DimOK]) (by simp [Call.Unitary]) (by
      intro s hs
      have := (classical_fold (N := N) (dims := [2, 3]) [.x 0 none 1] (by simp [Call.Valid, InRange, DimOK])
        (by simp [Call.Classical]) (startLevels_fits (init := []) (validStart_of rfl))).2
      rw [stateAfter, this]
      unfold basis
      split <;> simp)

/-- The state of a single register after `h` from level `l`. -/
theorem onReg_single {d l : Nat} (hl : l < d) (G : Nat → Nat → ℂ) {k : Nat} (hk : k < d) :
    onReg d 0 G (basis [l]) [k] = G k l := by
  have := onReg_basis (dims := [d]) (s := [l]) (t := [k]) (fits_singleton.2 ⟨l, rfl, hl⟩)
    (fits_singleton.2 ⟨k, rfl, hk⟩) (q := 0) (by simp) G
  simpa using this

/-- **C13** (refuted for complex amplitudes). On a single qutrit, `h` and then `z` give values of
`OutputMethod.probability` that sum to 0 rather than 1, so they are not probabilities. -/
theorem C13_not_probabilities (hN : N.Exact) {B : Backend ℂ} (hB : B.Lawful) :
    ∃ r, script N B (.list [3]) [] (some ⟨[3], .print, .probability⟩) [.h 0 none, .z 0 none, .measureAll] = .ok r ∧
      (r.map fun e => e.2).sum = 0 ∧ r ≠ [] ∧
      ∃ r', script N B (.list [3]) [] (some ⟨[3], .print, .amplitude⟩) [.h 0 none, .z 0 none, .measureAll] = .ok r' ∧
        total r' = 1 := by
  have hv : ∀ k ∈ [Call.h (R := ℂ) 0 none, .z 0 none], k.Valid [3] := by simp [Call.Valid, InRange, DimOK]
  have hs : ValidStart ([3].map Int.ofNat) [] := validStart_of rfl
  have hsum : ((listing (format [3] (some ⟨[3], .print, .probability⟩)) [3]
      (stateAfter N [3] [] [.h 0 none, .z 0 none])).map fun e => e.2).sum = 0 := by
    unfold listing outcome
    rw [List.map_map, List.map_map, ← sum_ite_zero]
    rw [map_congr_sum (g := fun s => stateAfter N [3] [] [.h 0 none, .z 0 none] s ^ 2) (by
      intro s _
      by_cases h0 : stateAfter N [3] [] [.h 0 none, .z 0 none] s = 0
      · simp [h0]
      · simp only [ne_eq, h0, not_false_eq_true, if_true]
        rfl)]
    have hk : ∀ k < 3, stateAfter N [3] [] [.h 0 none, .z 0 none] [k] = (N.roots 3).getD k 0 * N.invSqrt 3 := by
      intro k hk
      have h1 := onReg_phases (dims := [3]) (s := [k]) (fits_singleton.2 ⟨k, rfl, hk⟩) (q := 0) (by simp)
        (N.roots 3) (onReg 3 0 (hadamard (N.roots 3) (N.invSqrt 3) 3) (basis [0]))
      have h2 := onReg_single (d := 3) (l := 0) (by omega) (hadamard (N.roots 3) (N.invSqrt 3) 3) hk
      simp only [List.getD_cons_zero] at h1
      rw [h2] at h1
      have h3 : hadamard (N.roots 3) (N.invSqrt 3) 3 k 0 = N.invSqrt 3 := by simp [hadamard]
      rw [h3] at h1
      exact h1
    rw [states_singleton, List.map_map, range_three]
    simp only [List.map_cons, List.map_nil, Function.comp, List.sum_cons, List.sum_nil, hk 0 (by omega),
      hk 1 (by omega), hk 2 (by omega)]
    obtain ⟨hb, hq⟩ := hN.root_three
    have h1 := hN.root (d := 3) (i := 0) (by omega)
    have hl := hN.root_last (d := 3) (by omega)
    rw [hb, show (N.roots 3).getD 2 0 = 1 from hl]
    clear hb hk
    generalize (N.roots 3).getD 0 0 = w at *
    linear_combination N.invSqrt 3 ^ 2 * hq + N.invSqrt 3 ^ 2 * w * h1
  have htot : total (listing (format [3] (some ⟨[3], .print, .amplitude⟩)) [3]
      (stateAfter N [3] [] [.h 0 none, .z 0 none])) = 1 := by
    have := total_listing (o := format [3] (some ⟨[3], .print, .amplitude⟩)) rfl [3]
      (stateAfter N [3] [] [.h 0 none, .z 0 none])
    rw [stateAfter, weigh_after hN hv (fun k hk => Call.Unitary.isometric hN (by revert k; simp [Call.Unitary])),
      weigh_basis (startLevels_fits hs)] at this
    exact_mod_cast this
  refine ⟨_, script_valid hN.sized hB (by decide) hs (by simp) hv [], hsum, ?_,
    _, script_valid hN.sized hB (by decide) hs (by simp) hv [], htot⟩
  intro hnil
  unfold listing at hnil htot
  rw [List.map_eq_nil_iff] at hnil
  rw [hnil] at htot
  simp [total] at htot

/-! ### C08 -/

theorem root_four (hN : N.Exact) {i : Nat} (hi : i < 3) :
    (N.roots 4).getD i 0 = -1 ∨ (N.roots 4).getD i 0 = Complex.I ∨ (N.roots 4).getD i 0 = -Complex.I := by
  have h1 := hN.root (d := 4) (i := i) (by omega)
  have h2 := hN.root_ne_one (d := 4) (i := i) (by omega)
  generalize (N.roots 4).getD i 0 = x at *
  have hI : Complex.I ^ 2 = -1 := Complex.I_sq
  have : (x - 1) * ((x + 1) * ((x - Complex.I) * (x + Complex.I))) = 0 := by
    linear_combination h1 + (1 - x ^ 2) * hI
  rcases mul_eq_zero.1 this with h | h
  · exact absurd (sub_eq_zero.1 h) h2
  rcases mul_eq_zero.1 h with h | h
  · exact .inl (eq_neg_of_add_eq_zero_left h)
  rcases mul_eq_zero.1 h with h | h
  · exact .inr (.inl (sub_eq_zero.1 h))
  · exact .inr (.inr (eq_neg_of_add_eq_zero_left h))

/-- **C08** (refuted). On one register of dimension 4, whatever the order of the roots, `x(0)`, `h(0)`,
`h(0)` give amplitudes whose squared moduli sum to 3/2. -/
theorem C08_h_not_unitary_dim_four (hN : N.Exact) {B : Backend ℂ} (hB : B.Lawful) :
    ∃ r, script N B (.list [4]) [] none [.x 0 none 1, .h 0 none, .h 0 none, .measureAll] = .ok r ∧
      total r = 3 / 2 := by
  have hv : ∀ k ∈ [Call.x (R := ℂ) 0 none 1, .h 0 none, .h 0 none], k.Valid [4] := by
    simp [Call.Valid, InRange, DimOK]
  have hs : ValidStart ([4].map Int.ofNat) [] := validStart_of rfl
  refine ⟨_, script_valid hN.sized hB (by decide) hs (out := none) (by simp) hv [], ?_⟩
  have ht := total_listing (o := format [4] none) rfl [4]
    (stateAfter N [4] [] [.x 0 none 1, .h 0 none, .h 0 none])
  have hc : N.invSqrt 4 = 1 / 2 := by
    rw [hN.invSqrt 4 (by omega)]
    have : Real.sqrt ((4 : ℕ) : ℝ) = 2 := by
      rw [show ((4 : ℕ) : ℝ) = 2 ^ 2 by norm_num]
      exact Real.sqrt_sq (by norm_num)
    rw [this]
    norm_num
  have hx : meaning N [4] (.x 0 none 1) (basis (startLevels [4] [])) = basis [1] := by
    simp only [meaning]
    rw [move_basis (startLevels_fits hs)]
    rfl
  have hk : ∀ k < 4, stateAfter N [4] [] [.x 0 none 1, .h 0 none, .h 0 none] [k]
      = ((List.range 4).map fun j => hadamard (N.roots 4) (N.invSqrt 4) 4 k j *
          hadamard (N.roots 4) (N.invSqrt 4) 4 j 1).sum := by
    intro k _
    simp only [stateAfter, List.foldl_cons, List.foldl_nil, hx]
    change onReg 4 0 _ (onReg 4 0 _ (basis [1])) [k] = _
    conv_lhs => unfold onReg
    apply map_congr_sum
    intro j hj
    exact congrArg _ (onReg_single (by omega) _ (List.mem_range.1 hj))
  have hw : weigh (fun _ => 1) [4] (stateAfter N [4] [] [.x 0 none 1, .h 0 none, .h 0 none]) = 3 / 2 := by
    unfold weigh
    rw [states_singleton, List.map_map, range_four]
    simp only [List.map_cons, List.map_nil, Function.comp, List.sum_cons, List.sum_nil, hk 0 (by omega),
      hk 1 (by omega), hk 2 (by omega), hk 3 (by omega), hc, range_four]
    have d01 : (N.roots 4).getD 0 0 ≠ (N.roots 4).getD 1 0 := fun e => by
      have := hN.root_inj (d := 4) (by omega) (by omega) e
      omega
    have d02 : (N.roots 4).getD 0 0 ≠ (N.roots 4).getD 2 0 := fun e => by
      have := hN.root_inj (d := 4) (by omega) (by omega) e
      omega
    have d12 : (N.roots 4).getD 1 0 ≠ (N.roots 4).getD 2 0 := fun e => by
      have := hN.root_inj (d := 4) (by omega) (by omega) e
      omega
    have h0 := root_four hN (i := 0) (by omega)
    have h1 := root_four hN (i := 1) (by omega)
    have h2 := root_four hN (i := 2) (by omega)
    simp only [hadamard]
    norm_num only [if_true, if_false, or_true, or_false]
    generalize (N.roots 4).getD 0 0 = a at *
    generalize (N.roots 4).getD 1 0 = b at *
    generalize (N.roots 4).getD 2 0 = c at *
    have hst : star Complex.I = -Complex.I := Complex.conj_I
    have i2 : Complex.I ^ 2 = -1 := Complex.I_sq
    have i4 : Complex.I ^ 4 = 1 := Complex.I_pow_four
    clear hv hs ht hc hx hk
    rcases h0 with rfl | rfl | rfl <;> rcases h1 with rfl | rfl | rfl <;> rcases h2 with rfl | rfl | rfl <;>
      first
      | exact absurd rfl d01
      | exact absurd rfl d02
      | exact absurd rfl d12
      | (simp only [star_add, star_mul', star_div₀, star_one, star_ofNat, star_neg, star_zero, hst]
         ring_nf
         rw [i2]
         try rw [i4]
         norm_num)
  rw [hw] at ht
  have : ((total (listing (format [4] none) [4] (stateAfter N [4] [] [.x 0 none 1, .h 0 none, .h 0 none])) : ℝ) : ℂ)
      = ((3 / 2 : ℝ) : ℂ) := by rw [ht]; norm_num
  exact_mod_cast this

end QuDiet
