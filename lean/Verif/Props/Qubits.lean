import Verif.Props.Custom
import Verif.Props.Probability

/-! # C93: laws of `h`, `x`, `z` and `cx` on qubits and qutrits

The textbook identities between the gates, as the code obeys them. The phases of `z` end at 1 instead of starting there, so
`z` on a qubit is minus the usual matrix, and identities that hold exactly for the usual matrices hold here up to a
factor, which is stated. -/

namespace QuDiet
open Spec

/-! ### Specification -/

section
variable {R : Type} [CommRing R] [StarRing R] [DecidableEq R] [UnitaryCheck R]

/-- The calls `as` can be exchanged for `bs` in any circuit (made of valid calls, measured at its end, with any initial
levels), except that then all amplitudes that `run()` lists come out multiplied by `c`. -/
def SameUpTo (c : R) (N : Numerics R) (B : Backend R) (dims : List Nat) (as bs : List (Call R)) : Prop :=
  ∀ ty init, ValidStart (dims.map Int.ofNat) init → ∀ pre post : List (Call R), (∀ k ∈ pre, k.Valid dims) →
    (∀ k ∈ post, k.Valid dims) →
    ∃ r, script N B (.list (dims.map Int.ofNat)) init (some ⟨dims, ty, .amplitude⟩) (pre ++ bs ++ post ++ [.measureAll]) = .ok r ∧
      script N B (.list (dims.map Int.ofNat)) init (some ⟨dims, ty, .amplitude⟩) (pre ++ as ++ post ++ [.measureAll]) =
        .ok (r.map fun e => (e.1, c * e.2))

theorem applyAll_smul (N : Numerics R) {dims : List Nat} {ks : List (Call R)} (hks : ∀ k ∈ ks, k.Valid dims) (c : R)
    (ψ : State R) : EqOn dims (applyAll N dims ks fun s => c * ψ s) fun s => c * applyAll N dims ks ψ s := by
  intro s hs
  have := applyAll_sum N hks [()] (fun _ => c) (fun _ => ψ) s hs
  simpa using this

theorem sameUpTo_of [Nontrivial R] {N : Numerics R} (hN : N.Sized) {B : Backend R} (hB : B.Lawful) {dims : List Nat}
    (hne : dims ≠ []) {c c' : R} (hc : c' * c = 1) {as bs : List (Call R)} (ha : ∀ k ∈ as, k.Valid dims)
    (hb : ∀ k ∈ bs, k.Valid dims) (heq : ∀ ψ, EqOn dims (applyAll N dims as ψ) fun s => c * applyAll N dims bs ψ s) :
    SameUpTo c N B dims as bs := by
  intro ty init h pre post hpre hpost
  have v : ∀ {xs : List (Call R)}, (∀ k ∈ xs, k.Valid dims) → ∀ k ∈ pre ++ xs ++ post, k.Valid dims := by
    intro xs hx k hk
    rcases List.mem_append.1 hk with hk | hk
    · rcases List.mem_append.1 hk with hk | hk
      exacts [hpre k hk, hx k hk]
    · exact hpost k hk
  refine ⟨_, script_valid hN hB hne h (by simp) (v hb) [], ?_⟩
  refine (script_valid hN hB hne h (by simp) (v ha) []).trans ?_
  congr 1
  have e : EqOn dims (stateAfter N dims init (pre ++ as ++ post)) fun s => c * stateAfter N dims init (pre ++ bs ++ post) s := by
    intro s hs
    simp only [stateAfter_eq, applyAll_append]
    rw [applyAll_congr N hpost (heq _) s hs, applyAll_smul N hpost c _ s hs]
  simp only [listing]
  rw [outcome_scale (c := fun _ => c) e ?_, List.map_map, List.map_map]
  · apply List.map_congr_left
    intro e _
    cases ty <;> rfl
  · intro s _ h0
    have := congrArg (c' * ·) h0
    simpa [← mul_assoc, hc] using this

end

/-! ### One register -/

section
variable [UnitaryCheck ℂ] {N : Numerics ℂ} {B : Backend ℂ} {dims : List Nat}

/-- `h` and `z` on qubits and qutrits, in terms of the first root. -/
theorem hadamard_small (hN : N.Exact) {d : Nat} (hd : d = 2 ∨ d = 3) {i j : Nat} (hi : i < d) (hj : j < d) :
    hadamard (N.roots d) (N.invSqrt d) d i j = N.invSqrt d * (N.roots d).getD 0 0 ^ (i * j) := by
  rcases hd with rfl | rfl
  · rw [hadamard_two hN hi hj, hN.root_two]
  · exact hadamard_three hN hi hj

theorem root_small (hN : N.Exact) {d : Nat} (hd : d = 2 ∨ d = 3) {i : Nat} (hi : i < d) :
    (N.roots d).getD i 0 = (N.roots d).getD 0 0 ^ (i + 1) := by
  have hl := hN.root_last (d := d) (by omega)
  have hp := hN.root (d := d) (i := 0) (by omega)
  rcases hd with rfl | rfl
  · have : i = 0 ∨ i = 1 := by omega
    rcases this with rfl | rfl
    · simp
    · rw [hp]; exact hl
  · have : i = 0 ∨ i = 1 ∨ i = 2 := by omega
    rcases this with rfl | rfl | rfl
    · simp
    · exact hN.root_three.1
    · rw [hp]; exact hl

theorem pow_emod {w : ℂ} {d : Nat} (h : w ^ d = 1) (n : Nat) : w ^ (n % d) = w ^ n := by
  conv_rhs => rw [← Nat.div_add_mod n d, pow_add, pow_mul, h, one_pow, one_mul]

theorem onReg_smul {R : Type} [CommRing R] (d q : Nat) (c : R) (G : Nat → Nat → R) (ψ : State R) (s : List Nat) :
    onReg d q (fun i j => c * G i j) ψ s = c * onReg d q G ψ s := by
  unfold onReg
  rw [← List.sum_map_mul_left]
  apply map_congr_sum
  intro k _
  ring

/-- Calls on one register, given by matrices. -/
theorem sameUpTo_onReg (hN : N.Exact) (hB : B.Lawful) {q : Nat} (hq : q < dims.length) {c : ℂ} (hc : c ≠ 0)
    {a b a' b' : Call ℂ} (ha : a.Valid dims) (hb : b.Valid dims) (ha' : a'.Valid dims) (hb' : b'.Valid dims)
    {A C A' C' : Nat → Nat → ℂ}
    (eA : ∀ ψ, EqOn dims (meaning N dims a ψ) (onReg (dims.getD q 0) q A ψ))
    (eC : ∀ ψ, EqOn dims (meaning N dims b ψ) (onReg (dims.getD q 0) q C ψ))
    (eA' : ∀ ψ, EqOn dims (meaning N dims a' ψ) (onReg (dims.getD q 0) q A' ψ))
    (eC' : ∀ ψ, EqOn dims (meaning N dims b' ψ) (onReg (dims.getD q 0) q C' ψ))
    (h : ∀ i < dims.getD q 0, ∀ j < dims.getD q 0,
      ((List.range (dims.getD q 0)).map fun k => C i k * A k j).sum =
        c * ((List.range (dims.getD q 0)).map fun k => C' i k * A' k j).sum) :
    SameUpTo c N B dims [a, b] [a', b'] := by
  have hne : dims ≠ [] := by rintro rfl; simp at hq
  refine sameUpTo_of hN.sized hB hne (inv_mul_cancel₀ hc) (by simp [ha, hb]) (by simp [ha', hb']) fun ψ s hs => ?_
  change meaning N dims b (meaning N dims a ψ) s = c * meaning N dims b' (meaning N dims a' ψ) s
  rw [eC _ s hs, onReg_eqOn hq C (eA ψ) s hs, onReg_onReg hq C A ψ s hs, onReg_congr hq h ψ s hs, onReg_smul,
    eC' _ s hs, onReg_eqOn hq C' (eA' ψ) s hs, onReg_onReg hq C' A' ψ s hs]

theorem meaning_x_onReg {q : Nat} (hq : q < dims.length) (p : Int) (ψ : State ℂ) :
    EqOn dims (meaning N dims (.x q none p) ψ) (onReg (dims.getD q 0) q (shiftEntry (dims.getD q 0) p) ψ) := by
  have := (onReg_shift dims q hq p ψ).symm'
  rw [List.getD_eq_getElem _ _ hq]
  simpa [meaning] using this

/-- The factor of the laws: the first phase of `z`. -/
theorem first_root (hN : N.Exact) {d : Nat} (hd : d = 2 ∨ d = 3) :
    (N.roots d).getD 0 0 ^ d = 1 ∧ (N.roots d).getD 0 0 ≠ 1 ∧ (N.roots d).getD 0 0 ≠ 0 := by
  have h1 := hN.root (d := d) (i := 0) (by omega)
  refine ⟨h1, hN.root_ne_one (by omega), fun h0 => ?_⟩
  rw [h0, zero_pow (by omega)] at h1
  exact zero_ne_one h1

theorem sum_shift {d : Nat} {p : Int} (hd : 0 < d) {i : Nat} (hi : i < d) (f : Nat → ℂ) :
    ((List.range d).map fun k => shiftEntry d p i k * f k).sum = f (((i : Int) - p) % (d : Int)).toNat := by
  have hlt : (((i : Int) - p) % (d : Int)).toNat < d := by
    have := Int.emod_lt_of_pos ((i : Int) - p) (b := d) (by omega)
    have := Int.emod_nonneg ((i : Int) - p) (b := d) (by omega)
    omega
  rw [map_congr_sum (g := fun k => if (((i : Int) - p) % (d : Int)).toNat = k then f k else 0),
    sum_ite_eq _ List.nodup_range _ (List.mem_range.2 hlt) f]
  intro k hk
  have hk := List.mem_range.1 hk
  unfold shiftEntry
  have : (((k : Int) + p) % (d : Int)).toNat = i ↔ (((i : Int) - p) % (d : Int)).toNat = k := by
    have n1 := Int.emod_nonneg ((k : Int) + p) (b := d) (by omega)
    have n2 := Int.emod_nonneg ((i : Int) - p) (b := d) (by omega)
    constructor
    · intro h
      have h' : ((k : Int) + p) % (d : Int) = i := by omega
      have : ((i : Int) - p) % d = k := by
        rw [← h', Int.emod_sub_emod]
        rw [show (k : Int) + p - p = k by ring]
        exact Int.emod_eq_of_lt (by omega) (by omega)
      omega
    · intro h
      have h' : ((i : Int) - p) % (d : Int) = k := by omega
      have : ((k : Int) + p) % d = i := by
        rw [← h', Int.emod_add_emod]
        rw [show (i : Int) - p + p = i by ring]
        exact Int.emod_eq_of_lt (by omega) (by omega)
      omega
  by_cases e : (((i : Int) - p) % (d : Int)).toNat = k
  · rw [if_pos (this.2 e), if_pos e, one_mul]
  · rw [if_neg (fun h => e (this.1 h)), if_neg e, zero_mul]

theorem sum_phases {d : Nat} {r : List ℂ} {i : Nat} (hi : i < d) (f : Nat → ℂ) :
    ((List.range d).map fun k => phases r i k * f k).sum = r.getD i 0 * f i := by
  rw [map_congr_sum (g := fun k => if i = k then r.getD i 0 * f k else 0),
    sum_ite_eq _ List.nodup_range _ (List.mem_range.2 hi) fun k => r.getD i 0 * f k]
  intro k _
  unfold phases
  split <;> simp

theorem sum_phases' {d : Nat} {r : List ℂ} {j : Nat} (hj : j < d) (f : Nat → ℂ) :
    ((List.range d).map fun k => f k * phases r k j).sum = f j * r.getD j 0 := by
  rw [map_congr_sum (g := fun k => if j = k then f j * r.getD j 0 else 0),
    sum_ite_eq _ List.nodup_range _ (List.mem_range.2 hj) fun _ => f j * r.getD j 0]
  intro k _
  unfold phases
  by_cases e : j = k
  · subst e; simp
  · have : ¬ k = j := fun h => e h.symm
    simp [e, this]

theorem sum_shift' {d : Nat} {p : Int} (hd : 0 < d) {j : Nat} (f : Nat → ℂ) :
    ((List.range d).map fun k => f k * shiftEntry d p k j).sum = f (((j : Int) + p) % (d : Int)).toNat := by
  have hlt : (((j : Int) + p) % (d : Int)).toNat < d := by
    have := Int.emod_lt_of_pos ((j : Int) + p) (b := d) (by omega)
    have := Int.emod_nonneg ((j : Int) + p) (b := d) (by omega)
    omega
  rw [map_congr_sum (g := fun k => if (((j : Int) + p) % (d : Int)).toNat = k then f k else 0),
    sum_ite_eq _ List.nodup_range _ (List.mem_range.2 hlt) f]
  intro k _
  unfold shiftEntry
  split <;> simp

/-- **C93.** On a qubit or a qutrit there is a `d`-th root of unity `ω` other than 1 (on a qubit: -1), the same for all
circuits, such that: `x` and then `z` is `ω` times `z` and then `x`; `h` and then `z` is `ω` times `x` and then `h`; and `z`
and then `h` is `ω` times `h` and then the inverse of `x`. -/
theorem C93_h_x_z (hN : N.Exact) {d : Nat} (hd : d = 2 ∨ d = 3) :
    ∃ ω : ℂ, ω ^ d = 1 ∧ ω ≠ 1 ∧ ∀ {B : Backend ℂ}, B.Lawful → ∀ {dims : List Nat} {q : Nat}, q < dims.length →
      dims.getD q 0 = d →
      SameUpTo ω N B dims [.x q none 1, .z q none] [.z q none, .x q none 1] ∧
      SameUpTo ω N B dims [.h q none, .z q none] [.x q none 1, .h q none] ∧
      SameUpTo ω N B dims [.z q none, .h q none] [.h q none, .x q none (-1)] := by
  obtain ⟨h1, h2, h3⟩ := first_root hN hd
  refine ⟨_, h1, h2, fun {B} hB {dims q} hq hdq => ?_⟩
  have vz : (Call.z (R := ℂ) q none).Valid dims := ⟨⟨by omega, by omega⟩, .inl rfl⟩
  have vh : (Call.h (R := ℂ) q none).Valid dims := ⟨⟨by omega, by omega⟩, .inl rfl⟩
  have vx : ∀ p : Int, p = 1 ∨ p = -1 → (Call.x (R := ℂ) q none p).Valid dims := by
    intro p hp
    refine ⟨⟨by omega, by omega⟩, .inl rfl, ?_⟩
    simp only [Int.toNat_natCast, hdq]
    omega
  have mz : ∀ ψ, EqOn dims (meaning N dims (.z q none) ψ) (onReg (dims.getD q 0) q (phases (N.roots d)) ψ) := by
    intro ψ s _
    simp only [meaning, Int.toNat_natCast, hdq]
  have mh : ∀ ψ, EqOn dims (meaning N dims (.h q none) ψ)
      (onReg (dims.getD q 0) q (hadamard (N.roots d) (N.invSqrt d) d) ψ) := by
    intro ψ s _
    simp only [meaning, Int.toNat_natCast, hdq]
  have mx : ∀ p ψ, EqOn dims (meaning N dims (.x q none p) ψ) (onReg (dims.getD q 0) q (shiftEntry d p) ψ) := by
    intro p ψ
    have := meaning_x_onReg (N := N) hq p ψ
    rwa [hdq] at this ⊢
  refine ⟨sameUpTo_onReg hN hB hq h3 (vx 1 (.inl rfl)) vz vz (vx 1 (.inl rfl)) (mx 1) mz mz (mx 1) ?_,
    sameUpTo_onReg hN hB hq h3 vh vz (vx 1 (.inl rfl)) vh mh mz (mx 1) mh ?_,
    sameUpTo_onReg hN hB hq h3 vz vh vh (vx (-1) (.inr rfl)) mz mh mh (mx (-1)) ?_⟩
  all_goals
    rw [hdq]
    intro i hi j hj
  · rw [sum_phases hi, sum_phases' hj, root_small hN hd hi, root_small hN hd hj]
    unfold shiftEntry
    by_cases e : (((j : Int) + 1) % (d : Int)).toNat = i
    · rw [if_pos e, mul_one, one_mul, ← pow_succ', pow_succ' _ i]
      have : i = (j + 1) % d := by
        have : ((j : Int) + 1) % (d : Int) = ((j + 1) % d : Nat) := by push_cast; rfl
        omega
      rw [this, pow_emod h1, ← pow_succ']
    · rw [if_neg e]; ring
  · have lt : (j + 1) % d < d := Nat.mod_lt _ (by omega)
    rw [sum_phases hi, sum_shift' (by omega), show (((j : Int) + 1) % (d : Int)).toNat = (j + 1) % d by
      have : ((j : Int) + 1) % (d : Int) = ((j + 1) % d : Nat) := by push_cast; rfl
      omega, root_small hN hd hi, hadamard_small hN hd hi hj, hadamard_small hN hd hi lt, mul_comm i ((j + 1) % d),
      pow_mul _ ((j + 1) % d), pow_emod h1, ← pow_mul]
    ring
  · have lt : (i + 1) % d < d := Nat.mod_lt _ (by omega)
    rw [sum_phases' hj, sum_shift (by omega) hi, show (((i : Int) - -1) % (d : Int)).toNat = (i + 1) % d by
      have : ((i : Int) - -1) % (d : Int) = ((i + 1) % d : Nat) := by push_cast; rfl
      omega, root_small hN hd hj, hadamard_small hN hd hi hj, hadamard_small hN hd lt hj, pow_mul _ ((i + 1) % d), pow_emod h1,
      ← pow_mul]
    ring

/-- **C93.** On a qubit, `h`, `z`, `h` is `x` and `h`, `x`, `h` is `z`, with all amplitudes negated. -/
theorem C93_between_h (hN : N.Exact) (hB : B.Lawful) {q : Nat} (hq : q < dims.length) (hd : dims.getD q 0 = 2) :
    SameUpTo (-1) N B dims [.h q none, .z q none, .h q none] [.x q none 1] ∧
      SameUpTo (-1) N B dims [.z q none] [.h q none, .x q none 1, .h q none] := by
  have hne : dims ≠ [] := by rintro rfl; simp at hq
  obtain ⟨ω, h1, h2, h3⟩ := C93_h_x_z hN (d := 2) (.inl rfl)
  have hω : ω = -1 := by
    have : (ω - 1) * (ω + 1) = 0 := by ring_nf; rw [h1]; ring
    rcases mul_eq_zero.1 this with e | e
    · exact absurd (sub_eq_zero.1 e) h2
    · exact eq_neg_of_add_eq_zero_left e
  subst hω
  have vh : (Call.h (R := ℂ) q none).Valid dims := ⟨⟨by omega, by omega⟩, .inl rfl⟩
  have vz : (Call.z (R := ℂ) q none).Valid dims := ⟨⟨by omega, by omega⟩, .inl rfl⟩
  have vx : (Call.x (R := ℂ) q none 1).Valid dims := by
    refine ⟨⟨by omega, by omega⟩, .inl rfl, ?_⟩
    simp only [Int.toNat_natCast, hd]
    omega
  obtain ⟨-, key, -⟩ := h3 hB hq hd
  constructor
  · intro ty init h pre post hpre hpost
    obtain ⟨r, e1, e2⟩ := key ty init h pre (.h q none :: post) hpre (by
      intro k hk
      rcases List.mem_cons.1 hk with rfl | hk
      exacts [vh, hpost k hk])
    refine ⟨r, ?_, ?_⟩
    · rw [← e1]
      have := C07_h_twice_qubit hN hB hne h (out := some ⟨dims, ty, .amplitude⟩) (pre := pre ++ [.x q none 1]) (post := post) (by
        intro k hk
        rcases List.mem_append.1 hk with hk | hk
        · exact hpre k hk
        · rw [List.mem_singleton.1 hk]; exact vx) hpost hq hd
      rw [← this]
      simp
    · rw [← e2]
      simp
  · intro ty init h pre post hpre hpost
    obtain ⟨r, e1, e2⟩ := key ty init h (pre ++ [.h q none]) post (by
      intro k hk
      rcases List.mem_append.1 hk with hk | hk
      · exact hpre k hk
      · rw [List.mem_singleton.1 hk]; exact vh) hpost
    refine ⟨r, ?_, ?_⟩
    · rw [← e1]
      simp
    · rw [← e2]
      have := C07_h_twice_qubit hN hB hne h (out := some ⟨dims, ty, .amplitude⟩) (pre := pre) (post := .z q none :: post) hpre (by
        intro k hk
        rcases List.mem_cons.1 hk with rfl | hk
        exacts [vz, hpost k hk]) hq hd
      rw [show pre ++ [Call.z (R := ℂ) q none] ++ post ++ [.measureAll] = pre ++ .z q none :: post ++ [.measureAll] by simp, ← this]
      simp

end

/-! ### Two qubits -/

section
variable {R : Type} [CommRing R] [StarRing R] [DecidableEq R] [UnitaryCheck R]

/-- The state at the levels `s`, but `m` in register `c` and `n` in register `t`. -/
def at2 (c t : Nat) (s : List Nat) (ψ : State R) (m n : Nat) : R := ψ ((s.set c m).set t n)

variable {dims s : List Nat} {c t : Nat}

theorem at2_self (hs : Fits dims s) (hc : c < dims.length) (ht : t < dims.length) (ψ : State R) :
    ψ s = at2 c t s ψ (s.getD c 0) (s.getD t 0) := by
  have h1 : c < s.length := by rw [hs.1]; exact hc
  have h2 : t < s.length := by rw [hs.1]; exact ht
  unfold at2
  rw [set_getD_self h1, set_getD_self h2]

theorem at2_fits (hs : Fits dims s) (hdc : dims.getD c 0 = 2) (hdt : dims.getD t 0 = 2) {m n : Nat} (hm : m < 2) (hn : n < 2) :
    Fits dims ((s.set c m).set t n) :=
  fits_set (fits_set hs c m (by omega)) t n (by omega)

theorem at2_first (hs : Fits dims s) (hct : c ≠ t) (hc : c < dims.length) (G : Nat → Nat → R) (ψ : State R) (m n : Nat) :
    at2 c t s (onReg 2 c G ψ) m n = G m 0 * at2 c t s ψ 0 n + G m 1 * at2 c t s ψ 1 n := by
  have h1 : c < s.length := by rw [hs.1]; exact hc
  have e : ∀ k, ((s.set c m).set t n).set c k = (s.set c k).set t n := by
    intro k
    rw [List.set_comm _ _ hct, List.set_set, List.set_comm _ _ (Ne.symm hct)]
  unfold at2 onReg
  rw [getD_set_ne (Ne.symm hct), getD_set_self h1]
  simp [range_two, e]

theorem at2_second (hs : Fits dims s) (ht : t < dims.length) (G : Nat → Nat → R) (ψ : State R) (m n : Nat) :
    at2 c t s (onReg 2 t G ψ) m n = G n 0 * at2 c t s ψ m 0 + G n 1 * at2 c t s ψ m 1 := by
  have h1 : t < (s.set c m).length := by rw [List.length_set, hs.1]; exact ht
  unfold at2 onReg
  rw [getD_set_self h1]
  simp [range_two]

theorem at2_swap (hct : c ≠ t) (ψ : State R) (m n : Nat) : at2 c t s ψ m n = at2 t c s ψ n m := by
  unfold at2
  rw [List.set_comm _ _ hct]

theorem at2_cx (hs : Fits dims s) (hct : c ≠ t) (hc : c < dims.length) (ht : t < dims.length) (hdc : dims.getD c 0 = 2)
    (hdt : dims.getD t 0 = 2) (ψ : State R) {m n : Nat} (hm : m < 2) (hn : n < 2) :
    at2 c t s (move dims (controlled dims [c] t 1) ψ) m n = at2 c t s ψ m ((m + n) % 2) := by
  have h1 : c < s.length := by rw [hs.1]; exact hc
  have h2 : t < (s.set c m).length := by rw [List.length_set, hs.1]; exact ht
  have hu : Fits dims ((s.set c m).set t ((m + n) % 2)) := at2_fits hs hdc hdt hm (Nat.mod_lt _ (by omega))
  have e : controlled dims [c] t 1 ((s.set c m).set t ((m + n) % 2)) = (s.set c m).set t n := by
    have hm' : m = 0 ∨ m = 1 := by omega
    have hn' : n = 0 ∨ n = 1 := by omega
    simp only [controlled, List.mem_singleton, forall_eq, atTop, bump]
    rw [getD_set_ne (Ne.symm hct), getD_set_self h1, getD_set_self h2, hdc, hdt, List.set_set]
    rcases hm' with rfl | rfl <;> rcases hn' with rfl | rfl <;> simp
  unfold at2
  rw [← e]
  exact move_apply hu (fun u hu' h => controlled_inj hu hu' ht (by simpa using Ne.symm hct) h) ψ

theorem at2_cx' (hs : Fits dims s) (hct : c ≠ t) (hc : c < dims.length) (ht : t < dims.length) (hdc : dims.getD c 0 = 2)
    (hdt : dims.getD t 0 = 2) (ψ : State R) {m n : Nat} (hm : m < 2) (hn : n < 2) :
    at2 c t s (move dims (controlled dims [t] c 1) ψ) m n = at2 c t s ψ ((m + n) % 2) n := by
  rw [at2_swap hct, at2_cx hs (Ne.symm hct) ht hc hdt hdc ψ hn hm, ← at2_swap hct, Nat.add_comm]

/-- To compare states on two qubits. -/
theorem eqOn_at2 (hc : c < dims.length) (ht : t < dims.length) (hdc : dims.getD c 0 = 2) (hdt : dims.getD t 0 = 2)
    {ψ φ : State R} (h : ∀ s, Fits dims s → ∀ m < 2, ∀ n < 2, at2 c t s ψ m n = at2 c t s φ m n) : EqOn dims ψ φ := by
  intro s hs
  rw [at2_self hs hc ht ψ, at2_self hs hc ht φ]
  have h1 := fits_getD_lt hs c hc
  have h2 := fits_getD_lt hs t ht
  exact h s hs _ (by omega) _ (by omega)

end

section
variable [UnitaryCheck ℂ] {N : Numerics ℂ} {B : Backend ℂ} {dims : List Nat} {c t : Nat}

/-- **C93.** On two qubits, `cx` between `h` on both is `cx` with control and target exchanged. -/
theorem C93_cx_reversed (hN : N.Exact) (hB : B.Lawful) (hct : c ≠ t) (hc : c < dims.length) (ht : t < dims.length)
    (hdc : dims.getD c 0 = 2) (hdt : dims.getD t 0 = 2) :
    SameResults N B dims [.h c none, .h t none, .cx c t 1, .h c none, .h t none] [.cx t c 1] ∧
      SameResults N B dims [.h t none, .cx c t 1, .h t none] [.h c none, .cx t c 1, .h c none] := by
  have hne : dims ≠ [] := by rintro rfl; simp at hc
  have v1 : (Call.cx (R := ℂ) c t 1).Valid dims := ⟨⟨by omega, by omega⟩, ⟨by omega, by omega⟩⟩
  have v2 : (Call.cx (R := ℂ) t c 1).Valid dims := ⟨⟨by omega, by omega⟩, ⟨by omega, by omega⟩⟩
  have v3 : (Call.h (R := ℂ) c none).Valid dims := ⟨⟨by omega, by omega⟩, .inl rfl⟩
  have v4 : (Call.h (R := ℂ) t none).Valid dims := ⟨⟨by omega, by omega⟩, .inl rfl⟩
  have hh : ∀ i < 2, ∀ j < 2, hadamard (N.roots 2) (N.invSqrt 2) 2 i j = N.invSqrt 2 * (-1) ^ (i * j) :=
    fun i hi j hj => hadamard_two hN hi hj
  have hsq : N.invSqrt 2 * N.invSqrt 2 = 1 / 2 := by
    have := hN.invSqrt_sq (d := 2) (by omega)
    rwa [hN.invSqrt 2 (by omega), Complex.star_def, Complex.conj_ofReal, ← hN.invSqrt 2 (by omega)] at this
  have hs4 : N.invSqrt 2 ^ 4 = 1 / 4 := by
    rw [show N.invSqrt 2 ^ 4 = (N.invSqrt 2 * N.invSqrt 2) * (N.invSqrt 2 * N.invSqrt 2) by ring, hsq]
    norm_num
  constructor
  · refine sameResults_of hN.sized hB hne (by simp [v1, v3, v4]) (by simp [v2]) fun ψ => eqOn_at2 hc ht hdc hdt ?_
    intro s hs m hm n hn
    simp only [List.foldl_cons, List.foldl_nil, meaning, Int.toNat_natCast, hdc, hdt]
    have hm' : m = 0 ∨ m = 1 := by omega
    have hn' : n = 0 ∨ n = 1 := by omega
    rw [at2_cx' hs hct hc ht hdc hdt _ hm hn]
    simp only [at2_second hs ht, at2_first hs hct hc]
    rw [at2_cx hs hct hc ht hdc hdt _ (by omega) (by omega), at2_cx hs hct hc ht hdc hdt _ (by omega) (by omega),
      at2_cx hs hct hc ht hdc hdt _ (by omega) (by omega), at2_cx hs hct hc ht hdc hdt _ (by omega) (by omega)]
    simp only [at2_second hs ht, at2_first hs hct hc]
    generalize at2 c t s ψ = f
    rcases hm' with rfl | rfl <;> rcases hn' with rfl | rfl <;>
      simp only [Nat.zero_add, Nat.add_zero, Nat.reduceAdd, Nat.reduceMod, hh 0 (by omega) 0 (by omega), hh 0 (by omega) 1 (by omega), hh 1 (by omega) 0 (by omega), hh 1 (by omega) 1 (by omega)] <;>
      ring_nf <;> rw [hs4] <;> ring
  · refine sameResults_of hN.sized hB hne (by simp [v1, v4]) (by simp [v2, v3]) fun ψ => eqOn_at2 hc ht hdc hdt ?_
    intro s hs m hm n hn
    simp only [List.foldl_cons, List.foldl_nil, meaning, Int.toNat_natCast, hdc, hdt]
    have hm' : m = 0 ∨ m = 1 := by omega
    have hn' : n = 0 ∨ n = 1 := by omega
    rw [at2_second hs ht, at2_first hs hct hc, at2_cx hs hct hc ht hdc hdt _ hm (by omega),
      at2_cx hs hct hc ht hdc hdt _ hm (by omega), at2_cx' hs hct hc ht hdc hdt _ (by omega) hn,
      at2_cx' hs hct hc ht hdc hdt _ (by omega) hn]
    simp only [at2_second hs ht, at2_first hs hct hc]
    generalize at2 c t s ψ = f
    rcases hm' with rfl | rfl <;> rcases hn' with rfl | rfl <;>
      simp only [Nat.zero_add, Nat.add_zero, Nat.reduceAdd, Nat.reduceMod, hh 0 (by omega) 0 (by omega), hh 0 (by omega) 1 (by omega), hh 1 (by omega) 0 (by omega), hh 1 (by omega) 1 (by omega)] <;>
      ring_nf

end
/-! ### Examples -/

/-- A qutrit between a qubit and a ququart, in a circuit with other calls. -/
example [UnitaryCheck ℂ] {N : Numerics ℂ} (hN : N.Exact) : ∃ ω : ℂ, ω ^ 3 = 1 ∧ ω ≠ 1 ∧
    ∃ r, script N (numpyBackend ℂ) (.list [2, 3, 4]) [1] (some ⟨[2, 3, 4], .print, .amplitude⟩)
        ([.h 1 none] ++ [.z 1 none, .x 1 none 1] ++ [.cx 1 0 1, .h 1 none] ++ [.measureAll]) = .ok r ∧
      script N (numpyBackend ℂ) (.list [2, 3, 4]) [1] (some ⟨[2, 3, 4], .print, .amplitude⟩)
        ([.h 1 none] ++ [.x 1 none 1, .z 1 none] ++ [.cx 1 0 1, .h 1 none] ++ [.measureAll]) =
          .ok (r.map fun e => (e.1, ω * e.2)) := by
  obtain ⟨ω, h1, h2, h3⟩ := C93_h_x_z hN (d := 3) (.inr rfl)
  exact ⟨ω, h1, h2, (h3 numpy_lawful (dims := [2, 3, 4]) (q := 1) (by decide) rfl).1 .print [1] (validStart_of rfl)
    [.h 1 none] [.cx 1 0 1, .h 1 none] (by simp [Call.Valid, InRange, DimOK]) (by simp [Call.Valid, InRange, DimOK])⟩

/-- Two qubits with a qutrit between them. -/
example [UnitaryCheck ℂ] {N : Numerics ℂ} (hN : N.Exact) :
    SameResults N (sparseBackend ℂ) [2, 3, 2] [.h 2 none, .h 0 none, .cx 2 0 1, .h 2 none, .h 0 none] [.cx 0 2 1] :=
  (C93_cx_reversed hN sparse_lawful (dims := [2, 3, 2]) (c := 2) (t := 0) (by decide) (by decide) (by decide) rfl rfl).1

example [UnitaryCheck ℂ] {N : Numerics ℂ} (hN : N.Exact) :
    SameUpTo (-1) N (numpyBackend ℂ) [3, 2] [.h 1 none, .z 1 none, .h 1 none] [.x 1 none 1] :=
  (C93_between_h hN numpy_lawful (dims := [3, 2]) (q := 1) (by decide) rfl).1

end QuDiet
