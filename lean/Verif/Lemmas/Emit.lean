import Verif.Moments
import Verif.Lemmas.Step
import Verif.Semantics

/-! # Which gate object each call puts into the circuit -/

namespace QuDiet
open Spec

variable {R : Type} [CommRing R]

/-- The registers `off, …, off+k-1`. -/
abbrev slice (dims : List Nat) (off k : Nat) : List Nat := (dims.drop off).take k

theorem dims_split (dims : List Nat) (off k : Nat) :
    dims = dims.take off ++ slice dims off k ++ dims.drop (off + k) := by
  rw [List.append_assoc, ← List.drop_drop, List.take_append_drop, List.take_append_drop]

theorem slice_length {dims : List Nat} {off k : Nat} (h : off + k ≤ dims.length) :
    (slice dims off k).length = k := by
  simp; omega

theorem slice_one {dims : List Nat} {q : Nat} (h : q < dims.length) : slice dims q 1 = [dims[q]] := by
  rw [slice, List.drop_eq_getElem_cons h]; rfl

/-! ### Good and bad slots -/

variable [StarRing R] [DecidableEq R] [UnitaryCheck R]

/-- The operator's matrix is the block `b` on the registers it covers. -/
def GateOK (N : Numerics R) (dims : List Nat) (off k : Nat) (g : GateObj R) (b : Block R) : Prop :=
  b.1 = slice dims off k ∧ GateBlock N g b ∧ (g.isIdent = true → b.2 = idEntry)

/-- The operator has no matrix, or one that is too small for the registers it covers. -/
def GateBad (N : Numerics R) (dims : List Nat) (off k : Nat) (g : GateObj R) : Prop :=
  g.isIdent = false ∧ ((∃ e, g.unitary N (numpyBackend R) = .error e) ∨
    ∃ M : Mat R, g.unitary N (numpyBackend R) = .ok M ∧ M.rows = M.cols ∧
      M.rows < (slice dims off k).prod)

/-- A slot of a layer, holding a good block or (`none`) a bad operator. -/
def Slot (N : Numerics R) (dims : List Nat) (off k : Nat) (g : GateObj R) : Option (Block R) → Prop
  | some b => GateOK N dims off k g b
  | none => GateBad N dims off k g

theorem slot_ident (N : Numerics R) (dims : List Nat) (r : Nat) (hr : r < dims.length) :
    Slot N dims r 1 (.ident r (dims.getD r 0)) (some ([dims.getD r 0], idEntry)) := by
  have hd : dims.getD r 0 = dims[r] := by simp [List.getD_eq_getElem?_getD, hr]
  refine ⟨by rw [slice_one hr, hd], ⟨Mat.eye (dims.getD r 0), rfl, by simp [Mat.eye], by simp [Mat.eye], ?_⟩,
    fun _ => rfl⟩
  intros
  rfl

/-- The numeric libraries find as many roots as the degree. -/
def Numerics.Sized (N : Numerics R) : Prop := ∀ d, 1 ≤ d → (N.roots d).length = d

/-! ### Single-register gates -/

section
variable {dims : List Nat} {c : Circuit R}

theorem validate_rejected (hd : c.regDims = dims) (hn : c.regLength = dims.length) {q : Int}
    {k : Option Nat} {good : Bool} (h : fateOne dims q k good = .rejected) :
    (∃ e, c.validate q k = .error e) ∨ (c.validate q k = .ok () ∧ ∃ e, c.gateDims q k = .error e) := by
  unfold fateOne at h
  by_cases h1 : q < -(dims.length : Int) ∨ (dims.length : Int) ≤ q
  · by_cases h2 : (dims.length : Int) ≤ q
    · left
      refine ⟨.value, ?_⟩
      unfold Circuit.validate
      rw [hn, if_pos (by omega)]
    · rcases k with _ | _ | k
      · right
        refine ⟨?_, .index, ?_⟩
        · unfold Circuit.validate
          rw [hn, if_neg (by omega)]
        · unfold Circuit.gateDims
          simp only [hd, pyGet_out h1]
      · right
        refine ⟨?_, .index, ?_⟩
        · unfold Circuit.validate
          rw [hn, if_neg (by omega)]
          rfl
        · unfold Circuit.gateDims
          simp only [hd, pyGet_out h1]
      · left
        refine ⟨.index, ?_⟩
        unfold Circuit.validate
        rw [hn, if_neg (by omega)]
        simp only [hd, pyGet_out h1]
  · rw [if_neg h1] at h
    by_cases h2 : dimAt dims q < k.getD 0
    · left
      rcases k with _ | _ | k
      · simp at h2
      · simp at h2
      · refine ⟨.value, ?_⟩
        unfold Circuit.validate
        rw [hn, if_neg (by omega)]
        simp only [hd, pyGet_dimAt (dims := dims) (q := q) (by omega) (by omega)]
        rw [if_pos (by simpa using h2)]
    · rw [if_neg h2] at h
      split at h
      · cases h
      · split at h <;> cases h

theorem validate_accepted (hd : c.regDims = dims) (hn : c.regLength = dims.length) {q : Int}
    {k : Option Nat} {good : Bool} (h : fateOne dims q k good ≠ .rejected) :
    c.validate q k = .ok () ∧
      c.gateDims q k = .ok (if k.getD 0 = 0 then dimAt dims q else k.getD 0) ∧
      -(dims.length : Int) ≤ q ∧ q < dims.length ∧ k.getD 0 ≤ dimAt dims q := by
  unfold fateOne at h
  by_cases h1 : q < -(dims.length : Int) ∨ (dims.length : Int) ≤ q
  · rw [if_pos h1] at h; exact absurd rfl h
  · rw [if_neg h1] at h
    by_cases h2 : dimAt dims q < k.getD 0
    · rw [if_pos h2] at h; exact absurd rfl h
    · have hg := pyGet_dimAt (dims := dims) (q := q) (by omega) (by omega)
      refine ⟨?_, ?_, by omega, by omega, by omega⟩
      · unfold Circuit.validate
        rw [hn, if_neg (by omega)]
        rcases k with _ | _ | k
        · rfl
        · rfl
        · simp only [hd, hg]
          rw [if_neg (by simpa using h2)]
      · unfold Circuit.gateDims
        rcases k with _ | _ | k
        · simp [hd, hg]
        · simp [hd, hg]
        · simp

end

theorem fateOne_skipped {dims : List Nat} {q : Int} {k : Option Nat} {good : Bool}
    (h : fateOne dims q k good = .skipped) : q < 0 := by
  unfold fateOne at h
  split at h
  · cases h
  · split at h
    · cases h
    · split at h
      · assumption
      · split at h <;> cases h

theorem fateOne_applied {dims : List Nat} {q : Int} {k : Option Nat} {good : Bool}
    (h : fateOne dims q k good = .applied) :
    0 ≤ q ∧ q < dims.length ∧ (k.getD 0 = 0 ∨ k.getD 0 = dimAt dims q) ∧ good = true := by
  unfold fateOne at h
  split at h
  · cases h
  · split at h
    · cases h
    · split at h
      · cases h
      · split at h
        · rename_i h1 h2 h3 h4
          exact ⟨by omega, by omega, h4.1, h4.2⟩
        · cases h

theorem fateOne_broken {dims : List Nat} {q : Int} {k : Option Nat} {good : Bool}
    (h : fateOne dims q k good = .broken) :
    0 ≤ q ∧ q < dims.length ∧ k.getD 0 ≤ dimAt dims q ∧
      ¬ ((k.getD 0 = 0 ∨ k.getD 0 = dimAt dims q) ∧ good = true) := by
  unfold fateOne at h
  split at h
  · cases h
  · split at h
    · cases h
    · split at h
      · cases h
      · split at h
        · cases h
        · rename_i h1 h2 h3 h4
          exact ⟨by omega, by omega, by omega, h4⟩

theorem fateOne_ne_odd {dims : List Nat} {q : Int} {k : Option Nat} {good : Bool} :
    fateOne dims q k good ≠ .odd := by
  unfold fateOne
  intro h
  split at h
  · cases h
  · split at h
    · cases h
    · split at h
      · cases h
      · split at h <;> cases h

/-- What a call that is not rejected does to an unmeasured circuit: it adds the gate object `g`
on the registers between `lb` and `ub`. -/
structure Emits (N : Numerics R) (dims : List Nat) (c : Circuit R) (k : Call R) (q : RegArg)
    (lb ub : Int) (g : GateObj R) : Prop where
  gateAt : GateAt q lb ub g
  call : ∀ c', c.addMoment q g = .ok (c', true) → c.callM k = .ok (c', true)
  skipped : fate dims k = .skipped → ¬ lo dims lb < hi dims ub
  applied : fate dims k = .applied → lo dims lb < hi dims ub ∧ ∃ b,
    GateOK N dims (lo dims lb) (hi dims ub - lo dims lb) g b ∧
      ∀ ψ, EqOn dims (onBlock dims (lo dims lb) (hi dims ub - lo dims lb) b.2 ψ) (meaning N dims k ψ)
  broken : fate dims k = .broken → lo dims lb < hi dims ub ∧
    GateBad N dims (lo dims lb) (hi dims ub - lo dims lb) g
  faulty : fate dims k = .broken → k.Faulty dims → ∃ e, g.unitary N (numpyBackend R) = .error e
  op : k.op dims = .ok g

theorem lohi_one {dims : List Nat} {q : Int} (h0 : 0 ≤ q) (h1 : q < dims.length) :
    lo dims q = q.toNat ∧ hi dims q - lo dims q = 1 ∧ lo dims q < hi dims q := by
  simp only [lo, hi]; omega

/-- Common part of the single-register calls. -/
theorem emits_one {N : Numerics R} {dims : List Nat} {c : Circuit R} {q : Int} {k : Option Nat}
    {good : Bool} {call : Call R} {mk : Nat → GateObj R}
    (hd : c.regDims = dims) (hn : c.regLength = dims.length)
    (hfate : fate dims call = fateOne dims q k good) (hnr : fate dims call ≠ .rejected)
    (hop : call.op dims = .ok (mk (if k.getD 0 = 0 then dimAt dims q else k.getD 0)))
    (hcall : ∀ d c', c.validate q k = .ok () → c.gateDims q k = .ok d →
      c.addMoment (.int q) (mk d) = .ok (c', true) → c.callM call = .ok (c', true))
    (hmk : ∀ d, (mk d).regs = [q] ∧ (mk d).isInit = false ∧ (mk d).isMeas = false ∧ (mk d).isIdent = false)
    (happ : good = true → ∀ (h0 : 0 ≤ q) (h1 : q < dims.length), ∃ G : Nat → Nat → R,
      GateBlock N (mk (dimAt dims q)) ([dimAt dims q], G) ∧
      ∀ ψ, EqOn dims (onReg (dimAt dims q) q.toNat G ψ) (meaning N dims call ψ))
    (hbad : good = false → 0 ≤ q → q < dims.length → ∃ e, (mk (dimAt dims q)).unitary N (numpyBackend R) = .error e)
    (hsmall : ∀ d, 1 ≤ d → 0 ≤ q → q < dims.length → d < dimAt dims q →
      (∃ e, (mk d).unitary N (numpyBackend R) = .error e) ∨
      ∃ M : Mat R, (mk d).unitary N (numpyBackend R) = .ok M ∧ M.rows = d ∧ M.cols = d)
    (hfl : call.Faulty dims → (k.getD 0 = 0 ∨ k.getD 0 = dimAt dims q) ∨
      ∃ e, (mk (k.getD 0)).unitary N (numpyBackend R) = .error e) :
    ∃ ra lb ub g, Emits N dims c call ra lb ub g := by
  rw [hfate] at hnr
  obtain ⟨hv, hg, hq1, hq2, hk⟩ := validate_accepted hd hn hnr
  refine ⟨.int q, q, q, mk (if k.getD 0 = 0 then dimAt dims q else k.getD 0), ?_, ?_, ?_, ?_, ?_, ?_, hop⟩
  · obtain ⟨m1, m2, m3, m4⟩ := hmk (if k.getD 0 = 0 then dimAt dims q else k.getD 0)
    exact ⟨⟨rfl, rfl⟩, le_refl _, m2, m3, m4, by simp [m1], by simp [m1], by simp [m1]⟩
  · intro c' hc'
    exact hcall _ c' hv hg hc'
  · intro hs
    rw [hfate] at hs
    have := fateOne_skipped hs
    simp only [lo, hi]
    omega
  · intro ha
    rw [hfate] at ha
    obtain ⟨h0, h1, h2, h3⟩ := fateOne_applied ha
    obtain ⟨e1, e2, e3⟩ := lohi_one h0 h1
    have hdim : (if k.getD 0 = 0 then dimAt dims q else k.getD 0) = dimAt dims q := by
      split <;> omega
    rw [hdim, e1, e2] at *
    refine ⟨e3, ?_⟩
    obtain ⟨G, hG, hψ⟩ := happ h3 h0 h1
    have hqn : q.toNat < dims.length := by omega
    refine ⟨([dimAt dims q], G), ⟨?_, hG, ?_⟩, ?_⟩
    · rw [slice_one hqn, dimAt_nat h0 h1]
    · intro hid
      rw [(hmk _).2.2.2] at hid
      cases hid
    · intro ψ
      refine (onBlock_one dims q.toNat hqn G ψ).trans' ?_
      rw [← dimAt_nat h0 h1]
      exact hψ ψ
  · intro hb
    rw [hfate] at hb
    obtain ⟨h0, h1, h2, h3⟩ := fateOne_broken hb
    obtain ⟨e1, e2, e3⟩ := lohi_one h0 h1
    refine ⟨e3, (hmk _).2.2.2, ?_⟩
    have hqn : q.toNat < dims.length := by omega
    rw [e1, e2] at *
    rw [slice_one hqn, List.prod_singleton, ← dimAt_nat h0 h1]
    by_cases hk0 : k.getD 0 = 0 ∨ k.getD 0 = dimAt dims q
    · have hg : good = false := by
        cases good
        · rfl
        · exact absurd ⟨hk0, rfl⟩ h3
      left
      have hdim : (if k.getD 0 = 0 then dimAt dims q else k.getD 0) = dimAt dims q := by
        split <;> omega
      rw [hdim]
      exact hbad hg h0 h1
    · have hk1 : k.getD 0 ≠ 0 := fun h => hk0 (.inl h)
      have hk2 : k.getD 0 ≠ dimAt dims q := fun h => hk0 (.inr h)
      rw [if_neg hk1]
      rcases hsmall (k.getD 0) (by omega) h0 h1 (by omega) with h | ⟨M, hM, hr, hc⟩
      · exact .inl h
      · exact .inr ⟨M, hM, by rw [hr, hc], by omega⟩
  · intro hb hf
    rw [hfate] at hb
    obtain ⟨h0, h1, h2, h3⟩ := fateOne_broken hb
    by_cases hk0 : k.getD 0 = 0 ∨ k.getD 0 = dimAt dims q
    · have hg : good = false := by
        cases good
        · rfl
        · exact absurd ⟨hk0, rfl⟩ h3
      have hdim : (if k.getD 0 = 0 then dimAt dims q else k.getD 0) = dimAt dims q := by
        split <;> omega
      rw [hdim]
      exact hbad hg h0 h1
    · rw [if_neg fun h => hk0 (.inl h)]
      exact (hfl hf).resolve_left hk0

theorem hMat_size (N : Numerics R) (hN : N.Sized) {d : Nat} (hd : 1 ≤ d) :
    (hMat N d).rows = d ∧ (hMat N d).cols = d := by
  have : (N.roots d).dropLast.length + 1 = d := by rw [List.length_dropLast, hN d hd]; omega
  exact ⟨this, this⟩

theorem getD_eq_dimAt {dims : List Nat} {q : Int} (h0 : 0 ≤ q) (h1 : q < dims.length) :
    dims.getD q.toNat 0 = dimAt dims q := by
  unfold dimAt
  rw [Int.emod_eq_of_lt h0 h1]

theorem dimAt_ge_two {dims : List Nat} (h2 : ∀ d ∈ dims, 2 ≤ d) {q : Int}
    (h0 : 0 ≤ q) (h1 : q < dims.length) : 2 ≤ dimAt dims q := by
  rw [dimAt_nat h0 h1]
  exact h2 _ (List.getElem_mem _)

section
variable {N : Numerics R} (hN : N.Sized) {dims : List Nat} (h2 : ∀ d ∈ dims, 2 ≤ d) {c : Circuit R}
  (hd : c.regDims = dims) (hn : c.regLength = dims.length)
include hN h2 hd hn

theorem emits_h {q : Int} {k : Option Nat} (hnr : fate dims (.h q k : Call R) ≠ .rejected) :
    ∃ ra lb ub g, Emits N dims c (.h q k) ra lb ub g := by
  apply emits_one (good := true) (mk := fun d => .h q d) hd hn rfl hnr rfl
  · intro d c' hv hg ha
    simp only [Circuit.callM, hv, hg, bind, Except.bind, ha]
  · intro d; simp [GateObj.regs, GateObj.isInit, GateObj.isMeas, GateObj.isIdent]
  · intro _ h0 h1
    have hge := dimAt_ge_two h2 h0 h1
    obtain ⟨r, cc, he⟩ := hMat_ok N hge (hN _ (by omega))
    refine ⟨hadamard (N.roots (dimAt dims q)) (N.invSqrt (dimAt dims q)) (dimAt dims q), ⟨_, rfl, ?_⟩, ?_⟩
    · simpa using ⟨r, cc, he⟩
    · intro ψ
      simp only [meaning, getD_eq_dimAt h0 h1]
      exact EqOn.rfl'
  · intro h; cases h
  · intro d hd1 _ _ _
    right
    exact ⟨_, rfl, hMat_size N hN hd1⟩
  · intro h; exact h.elim

theorem emits_z {q : Int} {k : Option Nat} (hnr : fate dims (.z q k : Call R) ≠ .rejected) :
    ∃ ra lb ub g, Emits N dims c (.z q k) ra lb ub g := by
  apply emits_one (good := true) (mk := fun d => .z q d) hd hn rfl hnr rfl
  · intro d c' hv hg ha
    simp only [Circuit.callM, hv, hg, bind, Except.bind, ha]
  · intro d; simp [GateObj.regs, GateObj.isInit, GateObj.isMeas, GateObj.isIdent]
  · intro _ h0 h1
    have hge := dimAt_ge_two h2 h0 h1
    obtain ⟨r, cc, he⟩ := zMat_ok N (hN (dimAt dims q) (by omega))
    refine ⟨phases (N.roots (dimAt dims q)), ⟨_, rfl, ?_⟩, ?_⟩
    · simpa using ⟨r, cc, he⟩
    · intro ψ
      simp only [meaning, getD_eq_dimAt h0 h1]
      exact EqOn.rfl'
  · intro h; cases h
  · intro d hd1 _ _ _
    right
    obtain ⟨r, cc, _⟩ := zMat_ok N (hN d hd1)
    exact ⟨_, rfl, r, cc⟩
  · intro h; exact h.elim

omit hN in
theorem emits_x {q : Int} {k : Option Nat} {p : Int}
    (hnr : fate dims (.x q k p : Call R) ≠ .rejected) :
    ∃ ra lb ub g, Emits N dims c (.x q k p) ra lb ub g := by
  apply emits_one (good := decide (-(dimAt dims q : Int) ≤ p ∧ p < dimAt dims q))
    (mk := fun d => .x q d p) hd hn rfl hnr rfl
  · intro d c' hv hg ha
    simp only [Circuit.callM, hv, hg, bind, Except.bind, ha]
  · intro d; simp [GateObj.regs, GateObj.isInit, GateObj.isMeas, GateObj.isIdent]
  · intro hgood h0 h1
    have hp := of_decide_eq_true hgood
    obtain ⟨M, hM, hr, hc, he⟩ := xMat_ok (R := R) hp.1 hp.2
    refine ⟨shiftEntry (dimAt dims q) p, ⟨M, ?_, ?_⟩, ?_⟩
    · simp [GateObj.unitary, hM, numpyBackend]
    · simpa using ⟨hr, hc, he⟩
    · intro ψ
      have hqn : q.toNat < dims.length := by omega
      have := onReg_shift dims q.toNat hqn p ψ
      rw [← dimAt_nat h0 h1] at this
      exact this
  · intro hbad h0 h1
    have hp := of_decide_eq_false hbad
    refine ⟨.index, ?_⟩
    simp [GateObj.unitary, xMat_error (R := R) (d := dimAt dims q) (p := p) (by omega)]
  · intro d _ _ _ _
    by_cases hp : -(d : Int) ≤ p ∧ p < d
    · right
      obtain ⟨M, hM, hr, hc, he⟩ := xMat_ok (R := R) hp.1 hp.2
      exact ⟨M, by simp [GateObj.unitary, hM, numpyBackend], hr, hc⟩
    · left
      exact ⟨.index, by simp [GateObj.unitary, xMat_error (R := R) (d := d) (p := p) (by omega)]⟩
  · intro h; exact .inl h

omit hN h2 in
theorem emits_gate_int {q : Int} {k : Option Nat} {U : Mat R}
    (hnr : fate dims (.gate U (.int q) k) ≠ .rejected) :
    ∃ ra lb ub g, Emits N dims c (.gate U (.int q) k) ra lb ub g := by
  apply emits_one (good := U.isUnitary && U.rows == dimAt dims q && U.cols == dimAt dims q)
    (mk := fun d => .arb (.int q) (.int d) U) hd hn rfl hnr rfl
  · intro d c' hv hg ha
    simp only [Circuit.callM, hv, hg, bind, Except.bind, ha]
  · intro d; simp [GateObj.regs, GateObj.isInit, GateObj.isMeas, GateObj.isIdent]
  · intro hgood h0 h1
    simp only [Bool.and_eq_true, beq_iff_eq] at hgood
    obtain ⟨⟨hu, hr⟩, hc⟩ := hgood
    refine ⟨U.e, ⟨U, ?_, ?_⟩, ?_⟩
    · simp only [GateObj.unitary, arbMat, hu, hr, hc, numpyBackend]
      simp
    · simpa using ⟨hr, hc⟩
    · intro ψ
      simp only [meaning, getD_eq_dimAt h0 h1]
      exact EqOn.rfl'
  · intro hbad h0 h1
    simp only [GateObj.unitary, arbMat]
    cases hu : U.isUnitary with
    | false => exact ⟨.exception, by simp⟩
    | true =>
      rw [hu] at hbad
      have : ¬ (U.rows = dimAt dims q ∧ U.cols = dimAt dims q) := by
        rintro ⟨h1, h2⟩
        simp [h1, h2] at hbad
      exact ⟨.assertion, by simp [this]⟩
  · intro d _ _ _ _
    simp only [GateObj.unitary, arbMat]
    cases hu : U.isUnitary with
    | false => exact .inl ⟨.exception, by simp⟩
    | true =>
      by_cases hs : U.rows = d ∧ U.cols = d
      · right; exact ⟨U, by simp [hs, numpyBackend], hs⟩
      · left; exact ⟨.assertion, by simp [hs]⟩
  · rintro (h | h)
    · exact .inl (.inl h)
    · right
      simp only [GateObj.unitary, arbMat]
      cases hu : U.isUnitary with
      | false => exact ⟨.exception, by simp⟩
      | true =>
        have : ¬ (U.rows = k.getD 0 ∧ U.cols = k.getD 0) := fun hh => h ⟨hu, hh⟩
        exact ⟨.assertion, by simp [this]⟩

end

/-! ### Multi-register gates -/

/-- A matrix that moves states by a controlled increment within a block is the controlled
increment on all registers. -/
theorem onBlock_controlled {dims : List Nat} {off len : Nat} (hle : off + len ≤ dims.length)
    {M : Mat R} {cs : List Nat} {t : Nat} {p : Int} (hcs : ∀ x ∈ cs, off ≤ x ∧ x < off + len)
    (ht : off ≤ t ∧ t < off + len)
    (hM : Moves (slice dims off len) M
      (controlled (slice dims off len) (cs.map (· - off)) (t - off) p)) (ψ : State R) :
    EqOn dims (onBlock dims off len M.e ψ) (move dims (controlled dims cs t p) ψ) := by
  have hsplit := dims_split dims off len
  have hl : (dims.take off).length = off := by simp; omega
  have hs := slice_length hle
  have key := onBlock_move (dims.take off) (slice dims off len) (dims.drop (off + len)) M.e
    (controlled (slice dims off len) (cs.map (· - off)) (t - off) p)
    (fun m hm => fits_controlled hm _ _ (by rw [hs]; omega) p) hM.2.2 ψ
  rw [hl, hs, ← hsplit] at key
  refine key.trans' ?_
  intro s hs'
  rw [move_congr]
  intro u hu
  have hu' : Fits (dims.take off ++ slice dims off len ++ dims.drop (off + len)) u := by
    rw [← hsplit]; exact hu
  have := inBlock_controlled hu' cs t p (by rw [hl, hs]; exact hcs) (by rw [hl, hs]; exact ht)
  rw [hl, hs, ← hsplit] at this
  exact this

theorem Moves.block {N : Numerics R} {ds : List Nat} {M : Mat R} {f : List Nat → List Nat}
    (h : Moves ds M f) {g : GateObj R} (hg : g.unitary N (numpyBackend R) = .ok M) :
    GateBlock N g (ds, M.e) := ⟨M, hg, h.1, h.2.1, fun _ _ _ _ => rfl⟩

theorem lohi_in {dims : List Nat} {lb ub : Int} (h0 : 0 ≤ lb) (hle : lb ≤ ub) (h1 : ub < dims.length) :
    lo dims lb = lb.toNat ∧ hi dims ub - lo dims lb = (ub + 1 - lb).toNat ∧ lo dims lb < hi dims ub ∧
      lb.toNat + (ub + 1 - lb).toNat ≤ dims.length := by
  simp only [lo, hi]; omega

theorem pySlice_in {dims : List Nat} {a b : Int} (h0 : 0 ≤ a) (hle : a ≤ b) (h1 : b < dims.length) :
    pySlice dims a (b + 1) = slice dims a.toNat (b + 1 - a).toNat := by
  unfold pySlice sliceBound slice
  rw [if_pos h0, if_pos (show 0 ≤ b + 1 by omega), List.drop_take]
  congr 1
  · omega
  · rw [Nat.min_eq_left (by omega)]

theorem pySlice_length {α} (l : List α) (a b : Int) :
    (pySlice l a b).length = min (sliceBound l.length b) l.length - sliceBound l.length a := by
  unfold pySlice
  simp

omit [StarRing R] [DecidableEq R] [UnitaryCheck R] in
theorem cxRows_error {qreg : List Nat} {ctl tgt p : Int}
    (h : (qreg.length : Int) ≤ max ctl tgt - min ctl tgt) :
    ∃ e, cxRows (R := R) qreg ctl tgt p = .error e := by
  have hs : (if ctl < tgt then 0 else ctl - tgt) = ctl - min ctl tgt := by split <;> omega
  have htt : (if ctl < tgt then tgt - ctl else 0) = tgt - min ctl tgt := by split <;> omega
  unfold cxRows
  simp only [hs, htt]
  by_cases hc : (qreg.length : Int) ≤ ctl - min ctl tgt
  · rw [pyGet_out (.inr hc)]
    exact ⟨_, rfl⟩
  · cases pyGet qreg (ctl - min ctl tgt) with
    | error e => exact ⟨e, rfl⟩
    | ok d =>
      rw [pyGet_out (dims := qreg) (q := tgt - min ctl tgt) (.inr (by omega))]
      exact ⟨_, rfl⟩

section
variable {N : Numerics R} {dims : List Nat} {c : Circuit R}

theorem emits_cx (hd : c.regDims = dims) (hn : c.regLength = dims.length) (hpos : 0 < dims.length)
    {ctl tgt p : Int} : ∃ ra lb ub g, Emits N dims c (.cx ctl tgt p) ra lb ub g := by
  set active := if ctl < tgt then pySlice dims ctl (tgt + 1) else pySlice dims tgt (ctl + 1) with hact
  have hactive : active = pySlice dims (min ctl tgt) (max ctl tgt + 1) := by
    rw [hact]
    split
    · rw [min_eq_left (by omega), max_eq_right (by omega)]
    · rw [min_eq_right (by omega), max_eq_left (by omega)]
  refine ⟨.list [ctl, tgt], min ctl tgt, max ctl tgt, .cx active ctl tgt p, ?_, ?_, ?_, ?_, ?_, ?_, rfl⟩
  · refine ⟨⟨rfl, rfl⟩, by omega, rfl, rfl, rfl, ?_, ?_, ?_⟩
    · simp only [GateObj.regs, List.mem_cons, List.not_mem_nil, or_false]; omega
    · simp only [GateObj.regs, List.mem_cons, List.not_mem_nil, or_false]; omega
    · intro x hx
      simp only [GateObj.regs, List.mem_cons, List.not_mem_nil, or_false] at hx
      omega
  · intro c' hc'
    simp only [Circuit.callM, hd, ← hact]
    exact hc'
  · intro hs
    simp only [fate] at hs
    split at hs
    · cases hs
    · split at hs
      · simp only [lo, hi]; omega
      · cases hs
  · intro ha
    simp only [fate] at ha
    split at ha
    · rename_i hin
      obtain ⟨e1, e2, e3, e4⟩ := lohi_in (dims := dims) hin.1 (show min ctl tgt ≤ max ctl tgt by omega) hin.2
      rw [e1, e2] at *
      refine ⟨e3, ?_⟩
      rw [pySlice_in hin.1 (by omega) hin.2] at hactive
      have hlen : (active.length : Int) = max ctl tgt - min ctl tgt + 1 := by
        rw [hactive, slice_length e4]; omega
      obtain ⟨M, hM, hr, hc, he⟩ := cxRows_ok (R := R) (ds := active) (p := p) (by omega) (by omega) hlen
      have hmv : Moves active M.transpose
          (controlled active [(ctl - min ctl tgt).toNat] (tgt - min ctl tgt).toNat p) :=
        ⟨hc, hr, fun a b ha hb => he a b ha hb⟩
      have hu : (GateObj.cx active ctl tgt p : GateObj R).unitary N (numpyBackend R) = .ok M.transpose := by
        simp [GateObj.unitary, hM, numpyBackend]
      refine ⟨(active, M.transpose.e), ⟨hactive, hmv.block hu, by simp [GateObj.isIdent]⟩, ?_⟩
      intro ψ
      rw [hactive] at hmv
      simp only [meaning]
      apply onBlock_controlled e4 (by simp; omega) (by omega)
      have e5 : ([ctl.toNat].map (· - (min ctl tgt).toNat)) = [(ctl - min ctl tgt).toNat] := by
        simp; omega
      have e6 : tgt.toNat - (min ctl tgt).toNat = (tgt - min ctl tgt).toNat := by omega
      rw [e5, e6]
      exact hmv
    · split at ha <;> cases ha
  · intro hb
    simp only [fate] at hb
    split at hb
    · cases hb
    · split at hb
      · cases hb
      · rename_i h1 h2
        refine ⟨by simp only [lo, hi]; omega, rfl, .inl ?_⟩
        have hlen : (active.length : Int) ≤ max ctl tgt - min ctl tgt := by
          rw [hactive, pySlice_length]
          unfold sliceBound
          split <;> split <;> omega
        obtain ⟨e, he⟩ := cxRows_error (R := R) (p := p) hlen
        exact ⟨e, by simp [GateObj.unitary, he]⟩
  · intro hb _
    simp only [fate] at hb
    split at hb
    · cases hb
    · split at hb
      · cases hb
      · have hlen : (active.length : Int) ≤ max ctl tgt - min ctl tgt := by
          rw [hactive, pySlice_length]
          unfold sliceBound
          split <;> split <;> omega
        obtain ⟨e, he⟩ := cxRows_error (R := R) (p := p) hlen
        exact ⟨e, by simp [GateObj.unitary, he]⟩

end

end QuDiet
