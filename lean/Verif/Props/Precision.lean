import Mathlib.Analysis.Complex.Exponential
import Verif.Lemmas.Approx
import Verif.Props.Rounding

/-! # C55: how far rounding errors can go -/

namespace QuDiet
open Spec

variable [UnitaryCheck ℂ] {B : Backend ℂ} {N N' : Numerics ℂ} {u : ℝ}

/-- By how much a gate can multiply the sum of the absolute values of the amplitudes: the square root of the number
of levels for `h`, the largest sum of absolute values in a column for a custom gate (at most the square root of the
size if the matrix is unitary: `Mat.Unitary.spread_le`). -/
noncomputable def Call.gain (dims : List Nat) : Call ℂ → ℝ
  | .h q _ => Real.sqrt (dims.getD q.toNat 0)
  | .gate U _ _ => U.spread
  | _ => 1

/-- The number of rounded operations that an amplitude goes through: at most 3 for the entries of a gate's matrix,
one for each register in each layer, and for each gate a sum over all basis states. -/
def roundings (dims : List Nat) (calls : Nat) : Nat :=
  3 * calls + (dims.length * (calls + 1) + (dims.prod + 1) * calls)

theorem sqrt_one_le {n : Nat} (h : 1 ≤ n) : (1 : ℝ) ≤ Real.sqrt n := by
  rw [show (1 : ℝ) = Real.sqrt 1 by simp]
  exact Real.sqrt_le_sqrt (by exact_mod_cast h)

theorem Layer.length_le {n : Nat} {P : Nat → Nat → GateObj ℂ → Unit → Prop} {off : Nat}
    {m : List (GateObj ℂ)} {bs : List Unit} (h : Layer n P off m bs) : off + m.length ≤ n := by
  induction h with
  | nil => simp
  | cons hk _ _ _ _ _ ih => simp only [List.length_cons]; omega

theorem DimOK.dim {dims : List Nat} {q : Int} {o : Option Nat} {d : Nat} (hr : InRange dims q) (hd : DimOK dims q o)
    (h : (∃ j, o = some (j + 1) ∧ d = j + 1) ∨ (o.getD 0 = 0 ∧ pyGet dims q = .ok d)) : d = dims.getD q.toNat 0 := by
  rcases h with ⟨j, rfl, rfl⟩ | ⟨_, h⟩
  · rcases hd with hd | hd | hd
    · cases hd
    · cases hd
    · exact Option.some.inj hd
  · rw [pyGet_dimAt (by have := hr.1; omega) hr.2] at h
    rw [getD_dimAt hr]
    exact (Except.ok.inj h).symm

theorem Call.Valid.size {dims : List Nat} (h2 : ∀ d ∈ dims, 2 ≤ d) {U : Mat ℂ} {q : RegArg} {o : Option Nat}
    (hk : (Call.gate U q o).Valid dims) : U.rows = U.cols ∧ 1 ≤ U.rows := by
  cases q with
  | int q =>
    obtain ⟨hr, _, _, h3, h4⟩ := hk
    refine ⟨by rw [h3, h4], ?_⟩
    rw [h3, getD_dimAt hr]
    have := dimAt_ge_two h2 hr.1 hr.2
    omega
  | list qs =>
    obtain ⟨_, _, _, _, _, h3, h4⟩ := hk
    refine ⟨by rw [h3, h4], ?_⟩
    rw [h3]
    apply prod_pos_of
    intro d hd
    have := h2 d (List.mem_of_mem_drop (List.mem_of_mem_take hd))
    omega

theorem getD_ge_two {dims : List Nat} (h2 : ∀ d ∈ dims, 2 ≤ d) {q : Int} (hr : InRange dims q) :
    2 ≤ dims.getD q.toNat 0 := by
  rw [getD_dimAt hr]
  exact dimAt_ge_two h2 hr.1 hr.2

theorem valid_tame (hu : 0 ≤ u) {dims seq : List Nat} (h2 : ∀ d ∈ dims, 2 ≤ d) {k : Call ℂ} (hk : k.Valid dims)
    {g : GateObj ℂ} (hg : g.From dims seq k) :
    g.Tame ∧ g.err u ≤ (1 + u) ^ 3 ∧ g.amp ≤ k.gain dims := by
  have h1 : (1 : ℝ) ≤ 1 + u := by linarith
  have h3 : (1 : ℝ) ≤ (1 + u) ^ 3 := one_le_pow₀ h1
  cases g with
  | h q d =>
    obtain ⟨o, rfl, hd⟩ := hg
    obtain rfl := hk.2.dim hk.1 hd
    have := getD_ge_two h2 hk.1
    refine ⟨by simp only [GateObj.Tame]; omega, le_rfl, ?_⟩
    simp only [GateObj.amp, Call.gain]
    exact max_le (sqrt_one_le (by omega)) le_rfl
  | x q d p =>
    obtain ⟨o, rfl, hd⟩ := hg
    exact ⟨trivial, h3, le_rfl⟩
  | z q d =>
    obtain ⟨o, rfl, hd⟩ := hg
    obtain rfl := hk.2.dim hk.1 hd
    have := getD_ge_two h2 hk.1
    exact ⟨by simp only [GateObj.Tame]; omega, pow_le_pow_right₀ h1 (by omega), le_rfl⟩
  | cx ds c t p =>
    obtain rfl := hg
    exact ⟨trivial, h3, le_rfl⟩
  | toffoli cs t a ds U p =>
    obtain ⟨rfl, lb, ub, h⟩ := hg
    exact ⟨⟨toffoliDm_picks h, toffoliDm_square h⟩, h3, le_rfl⟩
  | arb q ds U =>
    obtain ⟨o, rfl⟩ := hg
    obtain ⟨h4, h5⟩ := Call.Valid.size h2 hk
    refine ⟨h4, ?_, ?_⟩
    · simp only [GateObj.err]
      exact le_self_pow₀ h1 (by norm_num)
    · exact le_rfl
  | init => exact hg.elim
  | ident => exact hg.elim
  | meas => exact hg.elim

theorem valid_gain {dims : List Nat} (h2 : ∀ d ∈ dims, 2 ≤ d) {k : Call ℂ} (hk : k.Valid dims) : 1 ≤ k.gain dims := by
  cases k with
  | h q o =>
    have := getD_ge_two h2 hk.1
    exact sqrt_one_le (by omega)
  | gate U q o => exact U.one_le_spread
  | _ => exact le_rfl

theorem initOps_err (dims : List Nat) (init : List Int) :
    ((initOps (R := ℂ) dims init).map (GateObj.err u)).prod = 1 ∧
    ((initOps (R := ℂ) dims init).map GateObj.amp).prod = 1 := by
  constructor <;>
  · apply List.prod_eq_one
    intro x hx
    obtain ⟨g, hg, rfl⟩ := List.mem_map.1 hx
    have := (initOps_isInit dims init g hg).1
    cases g <;> simp_all [GateObj.isInit, GateObj.err, GateObj.amp]

theorem weight_snoc (w : GateObj ℂ → ℝ) (ls : List (List (GateObj ℂ))) (m : List (GateObj ℂ)) :
    weight w (ls ++ [m]) = weight w ls * (m.map w).prod := by
  simp [weight]

theorem weight_reverse (w : GateObj ℂ → ℝ) (ls : List (List (GateObj ℂ))) : weight w ls.reverse = weight w ls := by
  unfold weight
  rw [List.map_reverse, List.prod_reverse]

/-- What `exec` computes with rounding. -/
theorem approx_exec (hB : B.Rounds u) (hN : N.Exact) (hN' : N'.Near N u) {dims : List Nat} (hne : dims ≠ [])
    {init : List Int} (h : ValidStart (dims.map Int.ofNat) init) (out : Option Output)
    {ks : List (Call ℂ)} (hks : ∀ k ∈ ks, k.Valid dims) (rest : List (Call ℂ)) :
    ∃ (y : B.M) (w : Mat ℂ), ((freshCircuit (.list (dims.map Int.ofNat)) dims init out).calls
        (ks ++ .measureAll :: rest)).flow.exec N' B = .ok (some y) ∧
      IsVec dims w (stateAfter N dims init ks) ∧
      Approx ((1 + u) ^ roundings dims ks.length) (ks.map (Call.gain dims)).prod (B.toarray y) w := by
  have hu := hB.nonneg
  have h1 : (1 : ℝ) ≤ 1 + u := by linarith
  have hpos := List.length_pos_of_ne_nil hne
  have h2 := ge_two_of_valid h
  have hl : live (ks ++ .measureAll :: rest) = ks := live_append_measure fun k hk => (hks k hk).not_measureAll
  have hex := exec_total hN.sized hpos h out (ks ++ .measureAll :: rest)
    (by rw [hl]; intro k hk; unfold Regular; rw [(hks k hk).applied h2]; simp)
    (q := .list (dims.map Int.ofNat)) (fun _ => list_toRegs dims)
  obtain ⟨w, hw, hvec⟩ := hex.2.2.2 (by simp) (by rw [hl]; intro k hk; rw [(hks k hk).applied h2]; simp)
  rw [hl, finalState_valid h2 hks] at hvec
  obtain ⟨_, v, hv, hv1, _, _⟩ := initOps_prepares (R := ℂ) N h hpos
  rcases exec_made (P := fun g => g.Tame ∧ g.isInit = false) (ι := Bool)
    (w := fun b g => if b then g.err u else g.amp)
    (V := fun b k => if b then (1 + u) ^ 3 else k.gain dims) (by simp [GateObj.Tame, GateObj.isInit])
    (by intro b q d; cases b <;> simp [GateObj.err, GateObj.amp])
    (by intro b g; cases b <;> simp [one_le_err hu g, one_le_amp g])
    (q := .list (dims.map Int.ofNat)) hpos init out (ks ++ .measureAll :: rest)
    (by rw [hl]; intro k hk b; cases b <;> simp [valid_gain h2 (hks k hk), one_le_pow₀ h1])
    (by
      rw [hl]
      intro k hk g hg
      obtain ⟨t1, t2, t3⟩ := valid_tame hu h2 (hks k hk) hg
      refine ⟨⟨t1, ?_⟩, ?_⟩
      · cases g <;> first | rfl | exact hg.elim
      · intro b; cases b <;> simp [t2, t3]) with hbad | ⟨layers, hlay, hM, hloop⟩
  · rw [hbad] at hw
    cases hw
  rw [hl] at hM
  have hMe := hM.weight true
  have hMa := hM.weight false
  simp only [if_true, Bool.false_eq_true, if_false, List.map_const', List.prod_replicate, ← pow_mul] at hMe hMa
  have hcount := hM.count
  have hiT : ∀ g ∈ initOps (R := ℂ) dims init, g.Tame := by
    intro g hg
    have := (initOps_isInit dims init g hg).1
    cases g <;> simp_all [GateObj.isInit, GateObj.Tame]
  have hin : (initOps (R := ℂ) dims init).length ≤ dims.length := by simp [initOps]
  have hlen : ∀ m ∈ layers, m.length ≤ dims.length := by
    intro m hm
    obtain ⟨b, hb⟩ := hlay m hm
    have := hb.length_le
    omega
  obtain ⟨ie, ia⟩ := initOps_err (u := u) dims init
  rw [hloop, List.reverse_cons] at hw
  rw [hloop, List.reverse_cons]
  have hwe : weight (GateObj.err u) layers.reverse ≤ (1 + u) ^ (3 * ks.length) := by
    rw [weight_reverse]; exact hMe
  have hwa : weight GateObj.amp layers.reverse ≤ (ks.map (Call.gain dims)).prod := by
    rw [weight_reverse]; exact hMa
  have hT : ∀ m ∈ layers.reverse, (∀ g ∈ m, g.Tame) ∧ m.length ≤ dims.length ∧ ∀ g ∈ m, g.isInit = false := by
    intro m hm
    have hm := List.mem_reverse.1 hm
    exact ⟨fun g hg => (hM.objs m hm g hg).1, hlen m hm, fun g hg => (hM.objs m hm g hg).2⟩
  have hcount : layers.reverse.length ≤ ks.length := by rw [List.length_reverse]; exact hcount
  clear hloop hM hlay hlen hMe hMa
  generalize layers.reverse = rs at *
  cases rs with
  | nil =>
    rw [List.nil_append, flowLoop, hv] at hw
    cases hw
    obtain ⟨y, hy, hA⟩ := approx_moment hB hN hN' hiT hin hv
    refine ⟨y, w, ?_, hvec, hA.mono ?_ ?_⟩
    · rw [List.nil_append, flowLoop, hy]
      rfl
    · rw [ie, one_mul]
      refine pow_le_pow_right₀ h1 ?_
      unfold roundings
      nlinarith
    · rw [ia]
      exact prod_one_le fun x hx => by
        obtain ⟨k, hk, rfl⟩ := List.mem_map.1 hx
        exact valid_gain h2 (hks k hk)
  | cons m rs =>
    rw [List.cons_append, flowLoop] at hw
    cases hm : momentExec N (numpyBackend ℂ) m with
    | error e => rw [hm] at hw; cases hw
    | ok X =>
      rw [hm] at hw
      obtain ⟨t1, t2, t3⟩ := hT m (by simp)
      obtain ⟨x, hx, hA⟩ := approx_moment hB hN hN' t1 t2 hm
      have p1 := prod_err hu m
      have p2 := prod_amp m
      have p3 := one_le_pow₀ h1 (n := dims.length)
      obtain ⟨y, hy, hAy⟩ := approx_flow hB hN hN' hv hv1 hiT hin rs (fun m hm => hT m (by simp [hm])) x X _ _
        (by nlinarith) (by linarith) hA w hw
      refine ⟨y, w, ?_, hvec, hAy.mono ?_ ?_⟩
      · rw [List.cons_append, flowLoop, hx]
        exact hy
      · unfold flowErr
        rw [weight_snoc, ie, mul_one]
        have e : weight (GateObj.err u) (m :: rs) = (m.map (GateObj.err u)).prod * weight (GateObj.err u) rs := by
          simp [weight]
        rw [e] at hwe
        calc (m.map (GateObj.err u)).prod * (1 + u) ^ dims.length *
              (weight (GateObj.err u) rs * (1 + u) ^
                (dims.length * (rs ++ [initOps dims init]).length + (dims.prod + 1) * (rs ++ [initOps dims init]).length))
            = ((m.map (GateObj.err u)).prod * weight (GateObj.err u) rs) *
              (1 + u) ^ (dims.length + (dims.length * (rs ++ [initOps (R := ℂ) dims init]).length +
                (dims.prod + 1) * (rs ++ [initOps (R := ℂ) dims init]).length)) := by
              rw [pow_add (1 + u) dims.length]; ring
          _ ≤ (1 + u) ^ (3 * ks.length) * (1 + u) ^ (dims.length * (ks.length + 1) + (dims.prod + 1) * ks.length) := by
              apply mul_le_mul hwe _ (by positivity) (by positivity)
              apply pow_le_pow_right₀ h1
              simp only [List.length_append, List.length_cons, List.length_nil, Nat.zero_add] at hcount ⊢
              have q1 := Nat.mul_le_mul_left dims.length hcount
              have q2 := Nat.mul_le_mul_left (dims.prod + 1) hcount
              rw [Nat.mul_add dims.length ks.length 1]
              omega
          _ = (1 + u) ^ roundings dims ks.length := by rw [← pow_add]; rfl
      · rw [weight_snoc, ia, mul_one]
        simpa [weight] using hwa

/-- **C55.** With floating point arithmetic of relative precision `u`, `run` shows amplitudes whose absolute errors,
all together, are at most `(1+u)^K - 1` times the product of the gains of the gates; `K` is the number of roundings. -/
theorem C55_error_bound (hB : B.Rounds u) (hN : N.Exact) (hN' : N'.Near N u) {dims : List Nat} (hne : dims ≠ [])
    {init : List Int} (h : ValidStart (dims.map Int.ofNat) init) {out : Option Output}
    (ho : ∀ o ∈ out, o.base = dims) {ks : List (Call ℂ)} (hks : ∀ k ∈ ks, k.Valid dims) :
    ∃ ψ : State ℂ, script N' B (.list (dims.map Int.ofNat)) init out (ks ++ [.measureAll]) =
        .ok (listing (format dims out) dims ψ) ∧
      ((states dims).map fun s => ‖ψ s - stateAfter N dims init ks s‖).sum ≤
        ((1 + u) ^ roundings dims ks.length - 1) * (ks.map (Call.gain dims)).prod := by
  have hu := hB.nonneg
  obtain ⟨y, w, hy, ⟨w1, w2, w3⟩, a1, a2, Ā, a3, a4⟩ := approx_exec hB hN hN' hne h out hks []
  refine ⟨fun s => (B.toarray y).e (value dims s) 0, ?_, ?_⟩
  · unfold script
    rw [new_ok rfl h out]
    change (Circuit.run N' B ((freshCircuit _ dims init out).calls (ks ++ [.measureAll]))).2 = _
    have hr : Circuit.runResult N' B ((freshCircuit (.list (dims.map Int.ofNat)) dims init out).calls
        (ks ++ [.measureAll])) = .ok (listing (format dims out) dims fun s => (B.toarray y).e (value dims s) 0) := by
      unfold Circuit.runResult
      obtain ⟨⟨f, hf⟩, _⟩ := reach_any (R := ℂ) (q := .list (dims.map Int.ofNat))
        (List.length_pos_of_ne_nil hne) init out (ks ++ [.measureAll])
      have ho' : ((freshCircuit (R := ℂ) (.list (dims.map Int.ofNat)) dims init out).calls
        (ks ++ [.measureAll])).output = format dims out := by
        rw [hf]
        exact fresh_output (R := ℂ) dims init out
      rw [hy, ho']
      have hv : IsVec dims (B.toarray y) fun s => (B.toarray y).e (value dims s) 0 :=
        ⟨by rw [a1, w1], by rw [a2, w2], fun s _ => rfl⟩
      exact output_vec hv _ (format_base ho)
    unfold Circuit.run
    rw [hr]
  · have hsum : ((states dims).map fun s => ‖(B.toarray y).e (value dims s) 0 - stateAfter N dims init ks s‖).sum =
        ∑ i ∈ Finset.range dims.prod, ‖(B.toarray y).e i 0 - w.e i 0‖ := by
      have e : ((states dims).map fun s => ‖(B.toarray y).e (value dims s) 0 - stateAfter N dims init ks s‖) =
          ((states dims).map (value dims)).map fun i => ‖(B.toarray y).e i 0 - w.e i 0‖ := by
        rw [List.map_map]
        apply List.map_congr_left
        intro s hs
        simp only [Function.comp, w3 s (mem_states.1 hs)]
      rw [e, map_value_states]
      rfl
    rw [hsum]
    have e1 : 0 ≤ (1 + u) ^ roundings dims ks.length - 1 := by
      have := one_le_pow₀ (show (1 : ℝ) ≤ 1 + u by linarith) (n := roundings dims ks.length)
      linarith
    calc ∑ i ∈ Finset.range dims.prod, ‖(B.toarray y).e i 0 - w.e i 0‖
        ≤ ∑ i ∈ Finset.range dims.prod, ((1 + u) ^ roundings dims ks.length - 1) * Ā i 0 := by
          apply Finset.sum_le_sum
          intro i hi
          exact (a3 i (by rw [w1]; exact Finset.mem_range.1 hi) 0 (by omega)).2
      _ = ((1 + u) ^ roundings dims ks.length - 1) * ∑ i ∈ Finset.range w.rows, Ā i 0 := by
          rw [Finset.mul_sum, w1]
      _ ≤ _ := mul_le_mul_of_nonneg_left (a4 0 (by omega)) e1

theorem pow_sub_one_le (hu : 0 ≤ u) {K : Nat} (hK : K * u ≤ 1) : (1 + u) ^ K - 1 ≤ 2 * (K * u) := by
  have h1 : (1 + u) ^ K ≤ Real.exp (K * u) := by
    rw [Real.exp_nat_mul]
    exact pow_le_pow_left₀ (by linarith) (by linarith [Real.add_one_le_exp u]) K
  have h0 : 0 ≤ K * u := by positivity
  have h2 := Real.abs_exp_sub_one_le (x := K * u) (by rw [abs_of_nonneg h0]; exact hK)
  rw [abs_of_nonneg h0] at h2
  have := le_abs_self (Real.exp (K * u) - 1)
  linarith

/-- **C55.** The same bound without the power: as long as `K u ≤ 1`, the errors are at most `2 K u` times the gains. -/
theorem C55_linear_bound (hB : B.Rounds u) (hN : N.Exact) (hN' : N'.Near N u) {dims : List Nat} (hne : dims ≠ [])
    {init : List Int} (h : ValidStart (dims.map Int.ofNat) init) {out : Option Output}
    (ho : ∀ o ∈ out, o.base = dims) {ks : List (Call ℂ)} (hks : ∀ k ∈ ks, k.Valid dims)
    (hK : roundings dims ks.length * u ≤ 1) :
    ∃ ψ : State ℂ, script N' B (.list (dims.map Int.ofNat)) init out (ks ++ [.measureAll]) =
        .ok (listing (format dims out) dims ψ) ∧
      ∀ s, Fits dims s → ‖ψ s - stateAfter N dims init ks s‖ ≤
        2 * (roundings dims ks.length * u) * (ks.map (Call.gain dims)).prod := by
  obtain ⟨ψ, h1, h2⟩ := C55_error_bound hB hN hN' hne h ho hks
  refine ⟨ψ, h1, fun s hs => ?_⟩
  have h3 : ‖ψ s - stateAfter N dims init ks s‖ ≤
      ((states dims).map fun s => ‖ψ s - stateAfter N dims init ks s‖).sum := by
    apply List.single_le_sum
    · intro x hx
      obtain ⟨t, _, rfl⟩ := List.mem_map.1 hx
      exact norm_nonneg _
    · exact List.mem_map.2 ⟨s, mem_states.2 hs, rfl⟩
  have hg : 0 ≤ (ks.map (Call.gain dims)).prod :=
    zero_le_one.trans (prod_one_le fun x hx => by
      obtain ⟨k, hk, rfl⟩ := List.mem_map.1 hx
      exact valid_gain (ge_two_of_valid h) (hks k hk))
  exact (h3.trans h2).trans (mul_le_mul_of_nonneg_right (pow_sub_one_le hB.nonneg hK) hg)

/-- **C55.** No outcome of noticeable amplitude is lost and none is made up: if the exact amplitude of a basis state exceeds
the bound, its label is listed, with an amplitude that is off by at most the bound; and every entry listed is a basis state
with an amplitude that is off by at most the bound. -/
theorem C55_no_outcome_lost (hB : B.Rounds u) (hN : N.Exact) (hN' : N'.Near N u) {dims : List Nat} (hne : dims ≠ [])
    {init : List Int} (h : ValidStart (dims.map Int.ofNat) init) {ks : List (Call ℂ)} (hks : ∀ k ∈ ks, k.Valid dims)
    {bound : ℝ} (hb : bound = ((1 + u) ^ roundings dims ks.length - 1) * (ks.map (Call.gain dims)).prod) :
    ∃ res, script N' B (.list (dims.map Int.ofNat)) init none (ks ++ [.measureAll]) = .ok res ∧
      (∀ s, Fits dims s → bound < ‖stateAfter N dims init ks s‖ →
        ∃ z, (.str (label s), z) ∈ res ∧ ‖z - stateAfter N dims init ks s‖ ≤ bound) ∧
      ∀ e ∈ res, ∃ s, Fits dims s ∧ e.1 = .str (label s) ∧ ‖e.2 - stateAfter N dims init ks s‖ ≤ bound := by
  subst hb
  obtain ⟨ψ, h1, h2⟩ := C55_error_bound hB hN hN' hne h (out := none) (by simp) hks
  have h3 : ∀ s, Fits dims s → ‖ψ s - stateAfter N dims init ks s‖ ≤
      ((1 + u) ^ roundings dims ks.length - 1) * (ks.map (Call.gain dims)).prod := by
    intro s hs
    refine le_trans ?_ h2
    apply List.single_le_sum
    · intro x hx
      obtain ⟨t, _, rfl⟩ := List.mem_map.1 hx
      exact norm_nonneg _
    · exact List.mem_map.2 ⟨s, mem_states.2 hs, rfl⟩
  refine ⟨_, h1, fun s hs hlt => ⟨ψ s, ?_, h3 s hs⟩, fun e he => ?_⟩
  · have hz : ψ s ≠ 0 := by
      intro hz
      have := h3 s hs
      rw [hz, zero_sub, norm_neg] at this
      linarith
    unfold listing
    refine List.mem_map.2 ⟨(s, ψ s), ?_, rfl⟩
    unfold outcome
    refine List.mem_map.2 ⟨s, ?_, rfl⟩
    rw [List.mem_filter]
    exact ⟨mem_states.2 hs, by simpa using hz⟩
  · obtain ⟨x, hx, rfl⟩ := List.mem_map.1 he
    obtain ⟨s, hs, rfl⟩ := List.mem_map.1 hx
    have hs' := mem_states.1 (List.mem_filter.1 hs).1
    exact ⟨s, hs', rfl, h3 s hs'⟩

/-! ### An instance -/

/-- Roots and square roots in double precision. -/
noncomputable def doubleN : Numerics ℂ where
  roots d := (standardN.roots d).map (roundComplex 52)
  invSqrt d := roundComplex 52 (standardN.invSqrt d)

theorem doubleN_near : doubleN.Near standardN ((1 / 2) ^ 53) where
  length d _ := by simp [doubleN]
  roots d _ i := by
    simp only [doubleN]
    by_cases hi : i < (standardN.roots d).length
    · rw [List.getD_eq_getElem?_getD, List.getD_eq_getElem?_getD, List.getElem?_map, List.getElem?_eq_getElem hi]
      exact (roundComplex_rounding 52).near _
    · rw [List.getD_eq_getElem?_getD, List.getD_eq_getElem?_getD, List.getElem?_map,
        List.getElem?_eq_none (by omega)]
      simp
  invSqrt d _ := (roundComplex_rounding 52).near _

/-- A circuit with a qutrit, a qubit and a ququart: the errors are below 10⁻¹². -/
example : ∃ ψ : State ℂ,
    script doubleN doubleBackend (.list [3, 2, 4]) [] none
      ([.h 0 none, .cx 0 2 1, .h 1 none, .z 2 none, .toffoli [0, 1] 2 3] ++ [.measureAll]) =
        .ok (listing (format [3, 2, 4] none) [3, 2, 4] ψ) ∧
      ∀ s, Fits [3, 2, 4] s → ‖ψ s - stateAfter standardN [3, 2, 4] []
        [.h 0 none, .cx 0 2 1, .h 1 none, .z 2 none, .toffoli [0, 1] 2 3] s‖ ≤ (1 / 10) ^ 12 := by
  obtain ⟨ψ, h1, h2⟩ := C55_linear_bound doubleBackend_rounds standardN_exact doubleN_near (dims := [3, 2, 4])
    (by simp) (init := []) (validStart_of rfl) (out := none) (by simp)
    (ks := [.h 0 none, .cx 0 2 1, .h 1 none, .z 2 none, .toffoli [0, 1] 2 3])
    (by simp [Call.Valid, InRange, DimOK, spanOf]) (by norm_num [roundings])
  refine ⟨ψ, h1, fun s hs => (h2 s hs).trans ?_⟩
  have e3 : Real.sqrt (3 : ℕ) ≤ 2 := Real.sqrt_le_iff.2 ⟨by norm_num, by norm_num⟩
  have e2 : Real.sqrt (2 : ℕ) ≤ 2 := Real.sqrt_le_iff.2 ⟨by norm_num, by norm_num⟩
  have e : (([.h 0 none, .cx 0 2 1, .h 1 none, .z 2 none, .toffoli [0, 1] 2 3] : List (Call ℂ)).map
      (Call.gain [3, 2, 4])).prod = Real.sqrt (3 : ℕ) * Real.sqrt (2 : ℕ) := by
    simp [Call.gain]
  rw [e]
  have : Real.sqrt (3 : ℕ) * Real.sqrt (2 : ℕ) ≤ 4 := by
    have := Real.sqrt_nonneg (3 : ℕ)
    have := Real.sqrt_nonneg (2 : ℕ)
    nlinarith
  calc 2 * (((roundings [3, 2, 4] 5 : ℕ) : ℝ) * (1 / 2) ^ 53) * (Real.sqrt (3 : ℕ) * Real.sqrt (2 : ℕ))
      ≤ 2 * (((roundings [3, 2, 4] 5 : ℕ) : ℝ) * (1 / 2) ^ 53) * 4 := mul_le_mul_of_nonneg_left this (by positivity)
    _ ≤ (1 / 10) ^ 12 := by norm_num [roundings]

/-- The hypotheses of `C55_no_outcome_lost`. -/
example := C55_no_outcome_lost doubleBackend_rounds standardN_exact doubleN_near (dims := [3, 2]) (by simp) (init := [1])
  (validStart_of rfl) (ks := [.h 0 none, .cx 0 1 1]) (by simp [Call.Valid, InRange, DimOK]) rfl

end QuDiet
