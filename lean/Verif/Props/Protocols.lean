import Verif.Props.Qubits

/-! # C65, C97: teleportation and dense coding

Two textbook protocols on qubits of a circuit, written with the calls of the library. Since nothing in a circuit can depend
on a measured level, the corrections of teleportation are controlled calls. -/

namespace QuDiet
open Spec

/-! ### Specification -/

/-- Two bits `a`, `b` sent by acting on qubit `p` only, between the calls that entangle it with qubit `q` and those that
read the bits out. -/
def denseCalls (R : Type) (p q a b : Nat) : List (Call R) :=
  [.h p none, .cx p q 1] ++ (if b = 1 then [.x p none 1] else []) ++ (if a = 1 then [.z p none] else []) ++ [.cx p q 1, .h p none]

/-- Qubits `q` and `r` are entangled, `p` is compared with `q`, and `r` is corrected by what `p` and `q` hold. -/
def teleportCalls (R : Type) (p q r : Nat) : List (Call R) :=
  [.h q none, .cx q r 1] ++ [.cx p q 1, .h p none] ++ [.cx q r 1] ++ [.h r none, .cx p r 1, .h r none]

/-! ### Proofs -/

section
variable {R : Type} [CommRing R]

/-- The state at the levels `s`, but `a`, `b` and `c` in registers `p`, `q` and `r`. -/
def at3 (p q r : Nat) (s : List Nat) (ψ : State R) (a b c : Nat) : R := ψ (((s.set p a).set q b).set r c)

variable {dims s : List Nat} {p q r : Nat}

theorem at3_rotate (hpq : p ≠ q) (hpr : p ≠ r) (hqr : q ≠ r) (ψ : State R) (a b c : Nat) :
    at3 p q r s ψ a b c = at3 r p q s ψ c a b := by
  unfold at3
  rw [List.set_comm (i := r) _ _ (Ne.symm hpr), List.set_comm (i := r) _ _ (Ne.symm hqr)]

theorem at3_swap (hpq : p ≠ q) (ψ : State R) (a b c : Nat) : at3 p q r s ψ a b c = at3 q p r s ψ b a c := by
  unfold at3
  rw [List.set_comm _ _ hpq]

end

section
variable {R : Type} [CommRing R] [StarRing R] [DecidableEq R] [UnitaryCheck R]
variable {dims s : List Nat} {p q r : Nat}

theorem at3_third (hs : Fits dims s) (hr : r < dims.length) (G : Nat → Nat → R) (ψ : State R) (a b c : Nat) :
    at3 p q r s (onReg 2 r G ψ) a b c = G c 0 * at3 p q r s ψ a b 0 + G c 1 * at3 p q r s ψ a b 1 := by
  have h1 : r < ((s.set p a).set q b).length := by rw [List.length_set, List.length_set, hs.1]; exact hr
  unfold at3 onReg
  rw [getD_set_self h1]
  simp [range_two]

theorem at3_first (hs : Fits dims s) (hpq : p ≠ q) (hpr : p ≠ r) (hqr : q ≠ r) (hp : p < dims.length) (G : Nat → Nat → R) (ψ : State R)
    (a b c : Nat) :
    at3 p q r s (onReg 2 p G ψ) a b c = G a 0 * at3 p q r s ψ 0 b c + G a 1 * at3 p q r s ψ 1 b c := by
  rw [← at3_rotate hqr (Ne.symm hpq) (Ne.symm hpr), at3_third hs hp, at3_rotate hqr (Ne.symm hpq) (Ne.symm hpr),
    at3_rotate hqr (Ne.symm hpq) (Ne.symm hpr)]

theorem at3_second (hs : Fits dims s) (hpq : p ≠ q) (hpr : p ≠ r) (hqr : q ≠ r) (hq : q < dims.length) (G : Nat → Nat → R) (ψ : State R)
    (a b c : Nat) :
    at3 p q r s (onReg 2 q G ψ) a b c = G b 0 * at3 p q r s ψ a 0 c + G b 1 * at3 p q r s ψ a 1 c := by
  rw [at3_rotate hpq hpr hqr, at3_third hs hq, ← at3_rotate hpq hpr hqr, ← at3_rotate hpq hpr hqr]

theorem at3_cx23 (hs : Fits dims s) (hqr : q ≠ r) (hq : q < dims.length) (hr : r < dims.length) (hdp : dims.getD p 0 = 2)
    (hdq : dims.getD q 0 = 2) (hdr : dims.getD r 0 = 2) (ψ : State R) {a b c : Nat} (ha : a < 2) (hb : b < 2) (hc : c < 2) :
    at3 p q r s (move dims (controlled dims [q] r 1) ψ) a b c = at3 p q r s ψ a b ((b + c) % 2) :=
  at2_cx (s := s.set p a) (fits_set hs _ _ (by omega)) hqr hq hr hdq hdr ψ hb hc

theorem at3_cx13 (hs : Fits dims s) (hpq : p ≠ q) (hpr : p ≠ r) (hp : p < dims.length) (hr : r < dims.length)
    (hdp : dims.getD p 0 = 2) (hdq : dims.getD q 0 = 2) (hdr : dims.getD r 0 = 2) (ψ : State R) {a b c : Nat} (ha : a < 2) (hb : b < 2)
    (hc : c < 2) :
    at3 p q r s (move dims (controlled dims [p] r 1) ψ) a b c = at3 p q r s ψ a b ((a + c) % 2) := by
  rw [at3_swap hpq, at3_cx23 hs hpr hp hr hdq hdp hdr ψ hb ha hc, at3_swap hpq]

theorem at3_cx12 (hs : Fits dims s) (hpq : p ≠ q) (hpr : p ≠ r) (hqr : q ≠ r) (hp : p < dims.length) (hq : q < dims.length)
    (hdp : dims.getD p 0 = 2) (hdq : dims.getD q 0 = 2) (hdr : dims.getD r 0 = 2) (ψ : State R) {a b c : Nat} (ha : a < 2) (hb : b < 2)
    (hc : c < 2) :
    at3 p q r s (move dims (controlled dims [p] q 1) ψ) a b c = at3 p q r s ψ a ((a + b) % 2) c := by
  rw [at3_rotate hpq hpr hqr, at3_cx23 hs hpq hp hq hdr hdp hdq ψ hc ha hb, ← at3_rotate hpq hpr hqr]

end

section
variable [UnitaryCheck ℂ] {N : Numerics ℂ} {B : Backend ℂ} {dims : List Nat}

theorem invSqrt_two_sq (hN : N.Exact) : N.invSqrt 2 * N.invSqrt 2 = 1 / 2 := by
  have := hN.invSqrt_sq (d := 2) (by omega)
  rwa [hN.invSqrt 2 (by omega), Complex.star_def, Complex.conj_ofReal, ← hN.invSqrt 2 (by omega)] at this

theorem teleport_at3 (hN : N.Exact) {p q r : Nat} (hpq : p ≠ q) (hpr : p ≠ r) (hqr : q ≠ r) (hp : p < dims.length)
    (hq : q < dims.length) (hr : r < dims.length) (hdp : dims.getD p 0 = 2) (hdq : dims.getD q 0 = 2) (hdr : dims.getD r 0 = 2)
    {s : List Nat} (hs : Fits dims s) (ψ : State ℂ) (h0 : ∀ a < 2, ∀ b < 2, ∀ c < 2, b ≠ 0 ∨ c ≠ 0 → at3 p q r s ψ a b c = 0)
    {a b c : Nat} (ha : a < 2) (hb : b < 2) (hc : c < 2) :
    at3 p q r s (applyAll N dims (teleportCalls ℂ p q r) ψ) a b c = 1 / 2 * at3 p q r s ψ c 0 0 := by
  have hh : ∀ i < 2, ∀ j < 2, hadamard (N.roots 2) (N.invSqrt 2) 2 i j = N.invSqrt 2 * (-1) ^ (i * j) :=
    fun i hi j hj => hadamard_two hN hi hj
  have hsq := invSqrt_two_sq hN
  have hs4 : N.invSqrt 2 ^ 4 = 1 / 4 := by
    rw [show N.invSqrt 2 ^ 4 = (N.invSqrt 2 * N.invSqrt 2) * (N.invSqrt 2 * N.invSqrt 2) by ring, hsq]
    norm_num
  have H1 := fun G ψ => at3_first (R := ℂ) hs hpq hpr hqr hp G ψ
  have H2 := fun G ψ => at3_second (R := ℂ) hs hpq hpr hqr hq G ψ
  have H3 := fun G ψ => at3_third (R := ℂ) (p := p) (q := q) hs hr G ψ
  have C23 := fun ψ a b c ha hb hc => at3_cx23 (R := ℂ) (a := a) (b := b) (c := c) hs hqr hq hr hdp hdq hdr ψ ha hb hc
  have C13 := fun ψ a b c ha hb hc => at3_cx13 (R := ℂ) (a := a) (b := b) (c := c) hs hpq hpr hp hr hdp hdq hdr ψ ha hb hc
  have C12 := fun ψ a b c ha hb hc => at3_cx12 (R := ℂ) (a := a) (b := b) (c := c) hs hpq hpr hqr hp hq hdp hdq hdr ψ ha hb hc
  have ha' : a = 0 ∨ a = 1 := by omega
  have hb' : b = 0 ∨ b = 1 := by omega
  have hc' : c = 0 ∨ c = 1 := by omega
  have z1 := h0 0 (by omega) 0 (by omega) 1 (by omega) (by omega)
  have z2 := h0 0 (by omega) 1 (by omega) 0 (by omega) (by omega)
  have z3 := h0 0 (by omega) 1 (by omega) 1 (by omega) (by omega)
  have z4 := h0 1 (by omega) 0 (by omega) 1 (by omega) (by omega)
  have z5 := h0 1 (by omega) 1 (by omega) 0 (by omega) (by omega)
  have z6 := h0 1 (by omega) 1 (by omega) 1 (by omega) (by omega)
  simp only [applyAll, teleportCalls, List.cons_append, List.nil_append, List.foldl_cons, List.foldl_nil, meaning, Int.toNat_natCast, hdp, hdq, hdr]
  rw [H3, C13 _ _ _ _ ha hb (by omega), C13 _ _ _ _ ha hb (by omega)]
  simp only [H3]
  rw [C23 _ _ _ _ ha hb (by omega), C23 _ _ _ _ ha hb (by omega)]
  simp only [H1]
  rw [C12 _ _ _ _ (by omega) hb (by omega), C12 _ _ _ _ (by omega) hb (by omega), C12 _ _ _ _ (by omega) hb (by omega),
    C12 _ _ _ _ (by omega) hb (by omega)]
  rw [C23 _ _ _ _ (by omega) (by omega) (by omega), C23 _ _ _ _ (by omega) (by omega) (by omega),
    C23 _ _ _ _ (by omega) (by omega) (by omega), C23 _ _ _ _ (by omega) (by omega) (by omega)]
  simp only [H2]
  rcases ha' with rfl | rfl <;> rcases hb' with rfl | rfl <;> rcases hc' with rfl | rfl <;>
    simp only [Nat.zero_add, Nat.add_zero, Nat.reduceAdd, Nat.reduceMod, hh 0 (by omega) 0 (by omega), hh 0 (by omega) 1 (by omega),
      hh 1 (by omega) 0 (by omega), hh 1 (by omega) 1 (by omega), z1, z2, z3, z4, z5, z6] <;>
    generalize at3 p q r s ψ 0 0 0 = x <;> generalize at3 p q r s ψ 1 0 0 = y <;> ring_nf <;> rw [hs4] <;> ring

theorem dense_state (hN : N.Exact) {p q : Nat} (hpq : p ≠ q) (hp : p < dims.length)
    (hq : q < dims.length) (hdp : dims.getD p 0 = 2) (hdq : dims.getD q 0 = 2)
    {s : List Nat} (hs : Fits dims s) (ψ : State ℂ) (h0 : ∀ m < 2, ∀ n < 2, m ≠ 0 ∨ n ≠ 0 → at2 p q s ψ m n = 0)
    {a b : Nat} (ha : a < 2) (hb : b < 2) {m n : Nat} (hm : m < 2) (hn : n < 2) :
    at2 p q s (applyAll N dims (denseCalls ℂ p q a b) ψ) m n = if m = a ∧ n = b then (-1) ^ a * at2 p q s ψ 0 0 else 0 := by
  have hh : ∀ i < 2, ∀ j < 2, hadamard (N.roots 2) (N.invSqrt 2) 2 i j = N.invSqrt 2 * (-1) ^ (i * j) :=
    fun i hi j hj => hadamard_two hN hi hj
  have hsq : N.invSqrt 2 ^ 2 = 1 / 2 := by rw [pow_two]; exact invSqrt_two_sq hN
  have hr0 : (N.roots 2).getD 0 0 = -1 := hN.root_two
  have hr1 : (N.roots 2).getD 1 0 = 1 := hN.root_last (d := 2) (by omega)
  have H1 := fun G ψ => at2_first (R := ℂ) hs hpq hp G ψ
  have C12 := fun ψ m n hm hn => at2_cx (R := ℂ) (m := m) (n := n) hs hpq hp hq hdp hdq ψ hm hn
  have X : ∀ (ψ : State ℂ) (m n : Nat), m < 2 → n < 2 →
      at2 p q s (meaning N dims (.x p none 1) ψ) m n = at2 p q s ψ ((m + 1) % 2) n := by
    intro ψ m n hm hn
    have e := meaning_x_onReg (N := N) hp 1 ψ _ (at2_fits hs hdp hdq hm hn)
    have hm' : m = 0 ∨ m = 1 := by omega
    change meaning N dims (.x p none 1) ψ ((s.set p m).set q n) = _
    rw [e, hdp]
    change at2 p q s (onReg 2 p _ ψ) m n = _
    rw [H1]
    rcases hm' with rfl | rfl <;> simp [shiftEntry]
  have H : ∀ (ψ : State ℂ) (m n : Nat), m < 2 → at2 p q s (meaning N dims (.h p none) ψ) m n =
      N.invSqrt 2 * (at2 p q s ψ 0 n + (-1) ^ m * at2 p q s ψ 1 n) := by
    intro ψ m n hm
    change at2 p q s (onReg (dims.getD p 0) p _ ψ) m n = _
    rw [Int.toNat_natCast, hdp, H1, hh m hm 0 (by omega), hh m hm 1 (by omega)]
    simp
    ring
  have Z : ∀ (ψ : State ℂ) (m n : Nat), m < 2 → at2 p q s (meaning N dims (.z p none) ψ) m n =
      (-1) ^ (m + 1) * at2 p q s ψ m n := by
    intro ψ m n hm
    have hm' : m = 0 ∨ m = 1 := by omega
    change at2 p q s (onReg (dims.getD p 0) p _ ψ) m n = _
    rw [Int.toNat_natCast, hdp, H1]
    rcases hm' with rfl | rfl
    · simp only [phases, hr0]; simp
    · simp only [phases, hr1]; simp
  have C : ∀ (ψ : State ℂ) (m n : Nat), m < 2 → n < 2 → at2 p q s (meaning N dims (.cx p q 1) ψ) m n =
      at2 p q s ψ m ((m + n) % 2) := fun ψ m n hm hn => C12 ψ m n hm hn
  have hm' : m = 0 ∨ m = 1 := by omega
  have hn' : n = 0 ∨ n = 1 := by omega
  have ha' : a = 0 ∨ a = 1 := by omega
  have hb' : b = 0 ∨ b = 1 := by omega
  have z1 := h0 0 (by omega) 1 (by omega) (by omega)
  have z2 := h0 1 (by omega) 0 (by omega) (by omega)
  have z3 := h0 1 (by omega) 1 (by omega) (by omega)
  rcases ha' with rfl | rfl <;> rcases hb' with rfl | rfl <;> rcases hm' with rfl | rfl <;> rcases hn' with rfl | rfl <;>
    simp only [applyAll, denseCalls, if_true, Nat.zero_ne_one, if_false, List.append_nil, List.cons_append, List.nil_append,
      List.foldl_cons, List.foldl_nil, and_true, true_and, Nat.one_ne_zero, and_false, false_and,
      H _ 0 _ (by omega), H _ 1 _ (by omega), Z _ 0 _ (by omega), Z _ 1 _ (by omega), C _ 0 0 (by omega) (by omega),
      C _ 0 1 (by omega) (by omega), C _ 1 0 (by omega) (by omega), C _ 1 1 (by omega) (by omega), X _ 0 0 (by omega) (by omega),
      X _ 0 1 (by omega) (by omega), X _ 1 0 (by omega) (by omega), X _ 1 1 (by omega) (by omega),
      Nat.zero_add, Nat.add_zero, Nat.reduceAdd, Nat.reduceMod, z1, z2, z3] <;>
    generalize at2 p q s ψ 0 0 = x <;> ring_nf <;> try (rw [hsq]; ring)

theorem denseCalls_valid {p q : Nat} (hp : p < dims.length) (hq : q < dims.length) (hdp : dims.getD p 0 = 2) (a b : Nat) :
    ∀ k ∈ denseCalls ℂ p q a b, k.Valid dims := by
  have v1 : (Call.cx (R := ℂ) p q 1).Valid dims := ⟨⟨by omega, by omega⟩, ⟨by omega, by omega⟩⟩
  have v2 : (Call.h (R := ℂ) p none).Valid dims := ⟨⟨by omega, by omega⟩, .inl rfl⟩
  have v3 : (Call.z (R := ℂ) p none).Valid dims := ⟨⟨by omega, by omega⟩, .inl rfl⟩
  have v4 : (Call.x (R := ℂ) p none 1).Valid dims := by
    refine ⟨⟨by omega, by omega⟩, .inl rfl, ?_⟩
    simp only [Int.toNat_natCast, hdp]
    omega
  intro k hk
  unfold denseCalls at hk
  split at hk <;> split at hk <;>
    (simp only [List.cons_append, List.nil_append, List.append_nil, List.mem_cons, List.not_mem_nil, or_false] at hk
     rcases hk with rfl | rfl | rfl | hk | hk | hk | hk <;> first | assumption | (subst hk; assumption) | skip)

theorem teleportCalls_valid {p q r : Nat} (hp : p < dims.length) (hq : q < dims.length) (hr : r < dims.length) :
    ∀ k ∈ teleportCalls ℂ p q r, k.Valid dims := by
  have v1 : (Call.cx (R := ℂ) p q 1).Valid dims := ⟨⟨by omega, by omega⟩, ⟨by omega, by omega⟩⟩
  have v2 : (Call.cx (R := ℂ) p r 1).Valid dims := ⟨⟨by omega, by omega⟩, ⟨by omega, by omega⟩⟩
  have v3 : (Call.cx (R := ℂ) q r 1).Valid dims := ⟨⟨by omega, by omega⟩, ⟨by omega, by omega⟩⟩
  have v4 : (Call.h (R := ℂ) p none).Valid dims := ⟨⟨by omega, by omega⟩, .inl rfl⟩
  have v5 : (Call.h (R := ℂ) q none).Valid dims := ⟨⟨by omega, by omega⟩, .inl rfl⟩
  have v6 : (Call.h (R := ℂ) r none).Valid dims := ⟨⟨by omega, by omega⟩, .inl rfl⟩
  simp [teleportCalls, v1, v2, v3, v4, v5, v6]

/-- **C97.** Dense coding. Whatever circuit `pre` leaves the qubits `p` and `q` at level 0, the calls that send the bits `a` and
`b` put `p` at level `a` and `q` at level `b`, leave the other registers as they were, and multiply every
amplitude by -1 if `a` is 1. -/
theorem C97_dense_coding (hN : N.Exact) (hB : B.Lawful) {init : List Int} (h : ValidStart (dims.map Int.ofNat) init) {p q : Nat}
    (hpq : p ≠ q) (hp : p < dims.length) (hq : q < dims.length) (hdp : dims.getD p 0 = 2) (hdq : dims.getD q 0 = 2)
    {pre : List (Call ℂ)} (hpre : ∀ k ∈ pre, k.Valid dims)
    (h0 : ∀ u, Fits dims u → amplitude N B dims init pre u ≠ 0 → u.getD p 0 = 0 ∧ u.getD q 0 = 0)
    {a b : Nat} (ha : a < 2) (hb : b < 2) {t : List Nat} (ht : Fits dims t) :
    amplitude N B dims init (pre ++ denseCalls ℂ p q a b) t =
      if t.getD p 0 = a ∧ t.getD q 0 = b then (-1) ^ a * amplitude N B dims init pre ((t.set p 0).set q 0) else 0 := by
  have hne : dims ≠ [] := by rintro rfl; simp at hq
  have hd := denseCalls_valid (dims := dims) hp hq hdp a b
  have hv : ∀ k ∈ pre ++ denseCalls ℂ p q a b, k.Valid dims := by
    intro k hk
    rcases List.mem_append.1 hk with hk | hk
    exacts [hpre k hk, hd k hk]
  have tp : p < t.length := by rw [ht.1]; exact hp
  have tq : q < t.length := by rw [ht.1]; exact hq
  have lp := fits_getD_lt ht p hp
  have lq := fits_getD_lt ht q hq
  rw [amplitude_eq hN.sized hB hne h hv ht, amplitude_eq hN.sized hB hne h hpre (at2_fits ht hdp hdq (by omega) (by omega)), stateAfter_eq,
    applyAll_append, ← stateAfter_eq, at2_self ht hp hq (applyAll N dims (denseCalls ℂ p q a b) _),
    dense_state hN hpq hp hq hdp hdq ht _ ?_ ha hb (by omega) (by omega)]
  · rfl
  · intro m hm n hn hmn
    by_contra e
    have hf := at2_fits ht hdp hdq hm hn
    obtain ⟨e1, e2⟩ := h0 _ hf (by rw [amplitude_eq hN.sized hB hne h hpre hf]; exact e)
    rw [getD_set_ne (Ne.symm hpq), getD_set_self tp] at e1
    rw [getD_set_self (by simpa using tq)] at e2
    omega

/-- **C65.** Teleportation anywhere in a circuit. Whatever circuit `pre` leaves the qubits `q` and `r` at level 0, and whatever it does to qubit `p` and all
other registers, the calls move what `p` held to `r`: every outcome, with `r` at some level and `p` and `q` at any of
their levels, has half of the amplitude that `pre` gives to the same outcome with `p` at that level. -/
theorem C65_teleport_anywhere (hN : N.Exact) (hB : B.Lawful) {init : List Int} (h : ValidStart (dims.map Int.ofNat) init) {p q r : Nat}
    (hpq : p ≠ q) (hpr : p ≠ r) (hqr : q ≠ r) (hp : p < dims.length) (hq : q < dims.length) (hr : r < dims.length)
    (hdp : dims.getD p 0 = 2) (hdq : dims.getD q 0 = 2) (hdr : dims.getD r 0 = 2)
    {pre : List (Call ℂ)} (hpre : ∀ k ∈ pre, k.Valid dims)
    (h0 : ∀ u, Fits dims u → amplitude N B dims init pre u ≠ 0 → u.getD q 0 = 0 ∧ u.getD r 0 = 0) {t : List Nat} (ht : Fits dims t) :
    amplitude N B dims init (pre ++ teleportCalls ℂ p q r) t =
      1 / 2 * amplitude N B dims init pre (((t.set p (t.getD r 0)).set q 0).set r 0) := by
  have hne : dims ≠ [] := by rintro rfl; simp at hq
  have hd := teleportCalls_valid (dims := dims) hp hq hr
  have hv : ∀ k ∈ pre ++ teleportCalls ℂ p q r, k.Valid dims := by
    intro k hk
    rcases List.mem_append.1 hk with hk | hk
    exacts [hpre k hk, hd k hk]
  have tp : p < t.length := by rw [ht.1]; exact hp
  have tq : q < t.length := by rw [ht.1]; exact hq
  have tr : r < t.length := by rw [ht.1]; exact hr
  have lp := fits_getD_lt ht p hp
  have lq := fits_getD_lt ht q hq
  have lr := fits_getD_lt ht r hr
  have hf : ∀ a < 2, ∀ b < 2, ∀ c < 2, Fits dims (((t.set p a).set q b).set r c) := fun a ha b hb c hc =>
    fits_set (at2_fits ht hdp hdq ha hb) _ _ (by omega)
  have self : ∀ ψ : State ℂ, ψ t = at3 p q r t ψ (t.getD p 0) (t.getD q 0) (t.getD r 0) := by
    intro ψ
    unfold at3
    rw [set_getD_self tp, set_getD_self tq, set_getD_self tr]
  rw [amplitude_eq hN.sized hB hne h hv ht, amplitude_eq hN.sized hB hne h hpre (hf _ (by omega) _ (by omega) _ (by omega)), stateAfter_eq,
    applyAll_append, ← stateAfter_eq, self (applyAll N dims (teleportCalls ℂ p q r) _),
    teleport_at3 hN hpq hpr hqr hp hq hr hdp hdq hdr ht _ ?_ (by omega) (by omega) (by omega)]
  · rfl
  · intro a ha b hb c hc hbc
    by_contra e
    have hf := hf a ha b hb c hc
    obtain ⟨e1, e2⟩ := h0 _ hf (by rw [amplitude_eq hN.sized hB hne h hpre hf]; exact e)
    rw [getD_set_ne (Ne.symm hqr), getD_set_self (by simpa using tq)] at e1
    rw [getD_set_self (by simpa using tr)] at e2
    omega

/-- After `h` on another register a register is where it was: a way to meet the hypotheses. -/
theorem untouched_h {p q : Nat} (hpq : p ≠ q) (hp : p < dims.length) {s u : List Nat} (hs : Fits dims s) (hu : Fits dims u)
    (h : meaning N dims (.h p none) (basis s) u ≠ 0) : u.getD q 0 = s.getD q 0 := by
  change onReg (dims.getD p 0) p _ (basis s) u ≠ 0 at h
  rw [onReg_basis hs hu hp] at h
  by_contra e
  apply h
  rw [if_neg]
  intro e'
  apply e
  rw [← getD_set_ne hpq, e']

/-- A superposition of a qubit teleported past a qutrit. -/
example {t : List Nat} (ht : Fits [2, 3, 2, 2] t) :
    amplitude standardN (numpyBackend ℂ) [2, 3, 2, 2] [1, 2] ([.h 0 none] ++ teleportCalls ℂ 0 2 3) t =
      1 / 2 * amplitude standardN (numpyBackend ℂ) [2, 3, 2, 2] [1, 2] [.h 0 none] (((t.set 0 (t.getD 3 0)).set 2 0).set 3 0) := by
  have v : ∀ k ∈ [Call.h (R := ℂ) 0 none], k.Valid [2, 3, 2, 2] := by simp [Call.Valid, InRange, DimOK]
  refine C65_teleport_anywhere standardN_exact numpy_lawful (validStart_of rfl) (by decide) (by decide) (by decide) (by decide) (by decide)
    (by decide) rfl rfl rfl v (fun u hu h0 => ?_) ht
  rw [amplitude_eq standardN_exact.sized numpy_lawful (by decide) (validStart_of rfl) v hu] at h0
  have e := fun q hq => untouched_h (N := standardN) (dims := [2, 3, 2, 2]) (p := 0) (q := q) hq (by decide)
    (startLevels_fits (init := [1, 2]) (validStart_of rfl)) hu h0
  exact ⟨(e 2 (by decide)).trans rfl, (e 3 (by decide)).trans rfl⟩

/-- Two bits sent over a qubit beside a qutrit in superposition. -/
example {t : List Nat} (ht : Fits [2, 3, 2] t) :
    amplitude standardN (sparseBackend ℂ) [2, 3, 2] [] ([.h 1 none] ++ denseCalls ℂ 2 0 1 0) t =
      if t.getD 2 0 = 1 ∧ t.getD 0 0 = 0 then
        (-1) ^ 1 * amplitude standardN (sparseBackend ℂ) [2, 3, 2] [] [.h 1 none] ((t.set 2 0).set 0 0) else 0 := by
  have v : ∀ k ∈ [Call.h (R := ℂ) 1 none], k.Valid [2, 3, 2] := by simp [Call.Valid, InRange, DimOK]
  refine C97_dense_coding standardN_exact sparse_lawful (validStart_of rfl) (by decide) (by decide) (by decide) rfl rfl v
    (fun u hu h0 => ?_) (by decide) (by decide) ht
  rw [amplitude_eq standardN_exact.sized sparse_lawful (by decide) (validStart_of rfl) v hu] at h0
  have e := fun q hq => untouched_h (N := standardN) (dims := [2, 3, 2]) (p := 1) (q := q) hq (by decide)
    (startLevels_fits (init := []) (validStart_of rfl)) hu h0
  exact ⟨(e 2 (by decide)).trans rfl, (e 0 (by decide)).trans rfl⟩

end
end QuDiet
