import Verif.Props.Qubits
import Verif.Props.Laws2

/-! # C96: levels can be copied, superpositions cannot

A circuit built with this library can copy the level of one register into another. No circuit copies a superposition:
whatever circuit copies the levels turns a superposition of levels into one in which the two registers agree. -/

namespace QuDiet
open Spec

/-! ### Specification -/

section
variable {R : Type} [CommRing R] [StarRing R] [DecidableEq R] [UnitaryCheck R]

/-- From the levels `u`, the calls `ks` put register `q` at the level of register `p`, and change nothing else. -/
def CopiesLevel (N : Numerics R) (B : Backend R) (dims : List Nat) (p q : Nat) (ks : List (Call R)) (u : List Nat) : Prop :=
  ∀ t, amplitude N B dims (asInit u) ks t = if t = u.set q (u.getD p 0) then 1 else 0

/-- Calls that copy: for each level `j` of register `p`, which has `d` levels, turn it to the top level, add `j` to
register `q` if it is there, and turn it back. -/
def copyCalls (R : Type) (d p q : Nat) : List (Call R) :=
  (List.range d).flatMap fun j : Nat => [.x p none (d - 1 - j), .cx p q j, .x p none (j + 1 - d)]

end

/-! ### Proofs -/

section
variable {R : Type} [CommRing R] [StarRing R] [DecidableEq R] [UnitaryCheck R]
variable {N : Numerics R} {B : Backend R} {dims : List Nat}

/-- **C96.** Take any circuit `pre`, and calls `ks` that copy the level of register `p` into register `q` from each outcome
that `pre` can give; in all of these register `q` is at level 0. Then `pre` followed by `ks` gives only outcomes
in which the two registers are at the same level, each with the amplitude that `pre` gives to the outcome before it
is copied. -/
theorem C96_copied [Nontrivial R] (hN : N.Sized) (hB : B.Lawful) (hne : dims ≠ []) (h2 : ∀ d ∈ dims, 2 ≤ d) {init : List Int}
    (h : ValidStart (dims.map Int.ofNat) init) {p q : Nat} (hpq : p ≠ q) (hp : p < dims.length) (hq : q < dims.length)
    {pre ks : List (Call R)} (hpre : ∀ k ∈ pre, k.Valid dims) (hks : ∀ k ∈ ks, k.Valid dims)
    (hcopy : ∀ u, Fits dims u → amplitude N B dims init pre u ≠ 0 → u.getD q 0 = 0 ∧ CopiesLevel N B dims p q ks u)
    {t : List Nat} (ht : Fits dims t) :
    amplitude N B dims init (pre ++ ks) t =
      if t.getD q 0 = t.getD p 0 then amplitude N B dims init pre (t.set q 0) else 0 := by
  have hv : ∀ k ∈ pre ++ ks, k.Valid dims := by
    intro k hk
    rcases List.mem_append.1 hk with hk | hk
    exacts [hpre k hk, hks k hk]
  have ht0 : Fits dims (t.set q 0) := by
    have := h2 (dims.getD q 0) (by rw [List.getD_eq_getElem _ _ hq]; exact List.getElem_mem hq)
    exact fits_set ht _ _ (by omega)
  have hlt : q < t.length := by rw [ht.1]; exact hq
  rw [amplitude_eq hN hB hne h hv ht, amplitude_eq hN hB hne h hpre ht0, stateAfter_eq, applyAll_append, ← stateAfter_eq,
    applyAll_expand N hks _ ht]
  rw [map_congr_sum (g := fun u => if t.set q 0 = u then (if t.getD q 0 = t.getD p 0 then stateAfter N dims init pre u else 0) else 0),
    sum_ite_eq _ (nodup_states _) _ (mem_states.2 ht0) (fun u => if t.getD q 0 = t.getD p 0 then stateAfter N dims init pre u else 0)]
  intro u hu
  have hu := mem_states.1 hu
  by_cases h0 : stateAfter N dims init pre u = 0
  · simp [h0]
  · obtain ⟨uq, hc⟩ := hcopy u hu (by rwa [amplitude_eq hN hB hne h hpre hu])
    have := hc t
    rw [amplitude_eq hN hB hne (validStart_asInit h2 hu) hks ht, stateAfter_eq, startLevels_asInit hu] at this
    rw [this]
    have hul : q < u.length := by rw [hu.1]; exact hq
    by_cases e : t = u.set q (u.getD p 0)
    · have e1 : t.getD q 0 = u.getD p 0 := by rw [e, getD_set_self hul]
      have e2 : t.getD p 0 = u.getD p 0 := by rw [e, getD_set_ne (fun x => hpq x.symm)]
      have e3 : t.set q 0 = u := by
        rw [e, List.set_set]
        conv_rhs => rw [← set_getD_self hul, uq]
      rw [if_pos e, if_pos e3, if_pos (e1.trans e2.symm), mul_one]
    · rw [if_neg e, mul_zero]
      by_cases e3 : t.set q 0 = u
      · have e4 : t.getD q 0 ≠ t.getD p 0 := by
          intro e5
          apply e
          rw [← e3, List.set_set, getD_set_ne (fun x => hpq x.symm), ← e5, set_getD_self hlt]
        rw [if_neg e4, ite_self]
      · rw [if_neg e3]

theorem copyStep {p q : Nat} (hpq : p ≠ q) (hp : p < dims.length) (hq : q < dims.length) {s : List Nat} (hs : Fits dims s)
    {j : Nat} (hj : j < dims.getD p 0) :
    bump dims p (j + 1 - (dims.getD p 0 : Nat)) (controlled dims [p] q j (bump dims p ((dims.getD p 0 : Nat) - 1 - j) s)) =
      if s.getD p 0 = j then bump dims q j s else s := by
  have hlt := fits_getD_lt hs p hp
  have hl : p < s.length := by rw [hs.1]; exact hp
  have hback : ∀ u, Fits dims u → bump dims p ((j : Int) + 1 - (dims.getD p 0 : Nat)) (bump dims p ((dims.getD p 0 : Nat) - 1 - j) u) = u := by
    intro u hu
    have := bump_neg hu hp ((dims.getD p 0 : Nat) - 1 - j : Int)
    rwa [show -(((dims.getD p 0 : Nat) : Int) - 1 - j) = (j : Int) + 1 - (dims.getD p 0 : Nat) by ring] at this
  unfold controlled
  have key : (∀ c ∈ [p], atTop dims c (bump dims p ((dims.getD p 0 : Nat) - 1 - j) s)) ↔ s.getD p 0 = j := by
    simp only [List.mem_singleton, forall_eq, atTop]
    rw [bump_getD_self hl]
    generalize s.getD p 0 = a at *
    generalize dims.getD p 0 = d at *
    by_cases e : a ≤ j
    · rw [Int.emod_eq_of_lt (by omega) (by omega)]
      omega
    · rw [show (a : Int) + (d - 1 - j) = (a - 1 - j) + d by ring, Int.add_emod_right, Int.emod_eq_of_lt (by omega) (by omega)]
      omega
  by_cases e : s.getD p 0 = j
  · rw [if_pos (key.2 e), if_pos e]
    have hf := fits_bump hs q hq j
    rw [bump_comm hs hq, hback _ hf]
  · rw [if_neg (fun x => e (key.1 x)), if_neg e, hback _ hs]

theorem copyCalls_valid {p q : Nat} (hp : p < dims.length) (hq : q < dims.length) :
    ∀ k ∈ copyCalls R (dims.getD p 0) p q, k.Valid dims := by
  intro k hk
  obtain ⟨j, hj, hk⟩ := List.mem_flatMap.1 hk
  have hj := List.mem_range.1 hj
  simp only [List.mem_cons, List.not_mem_nil, or_false] at hk
  rcases hk with rfl | rfl | rfl
  · refine ⟨⟨by omega, by omega⟩, .inl rfl, ?_⟩
    simp only [Int.toNat_natCast]
    omega
  · exact ⟨⟨by omega, by omega⟩, ⟨by omega, by omega⟩⟩
  · refine ⟨⟨by omega, by omega⟩, .inl rfl, ?_⟩
    simp only [Int.toNat_natCast]
    omega

theorem copyCalls_fold {p q : Nat} (hpq : p ≠ q) (hp : p < dims.length) (hq : q < dims.length) {s : List Nat} (hs : Fits dims s)
    (n : Nat) (hn : n ≤ dims.getD p 0) :
    ((List.range n).flatMap fun j : Nat => ([.x p none ((dims.getD p 0 : Nat) - 1 - j), .cx p q j,
        .x p none (j + 1 - (dims.getD p 0 : Nat))] : List (Call R))).foldl (fun s k => classicalStep dims k s) s =
      if s.getD p 0 < n then bump dims q (s.getD p 0 : Nat) s else s := by
  induction n with
  | zero => simp
  | succ n ih =>
    rw [List.range_succ, List.flatMap_append, List.foldl_append, ih (by omega)]
    have hf := fits_bump hs q hq (s.getD p 0 : Nat)
    simp only [List.flatMap_cons, List.flatMap_nil, List.append_nil, List.foldl_cons, List.foldl_nil, classicalStep, Int.toNat_natCast]
    by_cases e : s.getD p 0 < n
    · rw [if_pos e, if_pos (by omega), copyStep hpq hp hq hf (by omega), bump_getD_ne hpq, if_neg (by omega)]
    · rw [if_neg e, copyStep hpq hp hq hs (by omega)]
      by_cases e' : s.getD p 0 = n
      · rw [if_pos e', if_pos (by omega), e']
      · rw [if_neg e', if_neg (by omega)]

/-- **C96.** The calls `copyCalls` copy every level of a register into any register at level 0 that has as many levels
or more. -/
theorem C96_levels_copied [Nontrivial R] (hN : N.Sized) (hB : B.Lawful) (hne : dims ≠ []) (h2 : ∀ d ∈ dims, 2 ≤ d)
    {p q : Nat} (hpq : p ≠ q) (hp : p < dims.length) (hq : q < dims.length) (hle : dims.getD p 0 ≤ dims.getD q 0) {u : List Nat}
    (hu : Fits dims u) (h0 : u.getD q 0 = 0) :
    (∀ k ∈ copyCalls R (dims.getD p 0) p q, k.Valid dims) ∧
      CopiesLevel N B dims p q (copyCalls R (dims.getD p 0) p q) u := by
  refine ⟨copyCalls_valid hp hq, fun t => ?_⟩
  have hlt := fits_getD_lt hu p hp
  have hul : q < u.length := by rw [hu.1]; exact hq
  have hc : ∀ k ∈ copyCalls R (dims.getD p 0) p q, k.Classical := by
    intro k hk
    obtain ⟨j, hj, hk⟩ := List.mem_flatMap.1 hk
    simp only [List.mem_cons, List.not_mem_nil, or_false] at hk
    rcases hk with rfl | rfl | rfl <;> trivial
  obtain ⟨hf, he⟩ := classical_fold (N := N) _ (copyCalls_valid (R := R) hp hq) hc hu
  have hset : (copyCalls R (dims.getD p 0) p q).foldl (fun s k => classicalStep dims k s) u = u.set q (u.getD p 0) := by
    refine (copyCalls_fold hpq hp hq hu _ (le_refl _)).trans ?_
    rw [if_pos hlt, bump, h0, Int.emod_eq_of_lt (by omega) (by omega)]
    simp
  rw [hset] at hf he
  by_cases ht : Fits dims t
  · rw [amplitude_eq hN hB hne (validStart_asInit h2 hu) (copyCalls_valid hp hq) ht, stateAfter_eq, startLevels_asInit hu]
    exact congrFun he t
  · rw [if_neg (by rintro rfl; exact ht hf)]
    exact amplitude_unfit hN hB hne (validStart_asInit h2 hu) (copyCalls_valid hp hq) ht

end

section
variable [UnitaryCheck ℂ] {N : Numerics ℂ} {B : Backend ℂ} {dims : List Nat}

/-- **C96.** No circuit copies both the levels of a register and the superposition that `h` makes of them: calls `ks` that
copy every level of register `p` into register `q` give, after `h` on `p`, another listing than `h` on both
registers, because they never give the two registers different levels. -/
theorem C96_no_copy (hN : N.Exact) (hB : B.Lawful) {init : List Int}
    (h : ValidStart (dims.map Int.ofNat) init) {p q : Nat} (hpq : p ≠ q) (hp : p < dims.length) (hq : q < dims.length)
    (hq0 : (startLevels dims init).getD q 0 = 0)
    {ks : List (Call ℂ)} (hks : ∀ k ∈ ks, k.Valid dims)
    (hcopy : ∀ j < dims.getD p 0, CopiesLevel N B dims p q ks ((startLevels dims init).set p j)) :
    (∀ t, Fits dims t → t.getD p 0 ≠ t.getD q 0 → amplitude N B dims init ([.h p none] ++ ks) t = 0) ∧
    amplitude N B dims init ([.h p none, .h q none]) (((startLevels dims init).set p 0).set q 1) ≠ 0 ∧
    script N B (.list (dims.map Int.ofNat)) init (some ⟨dims, .state, .amplitude⟩) ([.h p none] ++ ks ++ [.measureAll]) ≠
      script N B (.list (dims.map Int.ofNat)) init (some ⟨dims, .state, .amplitude⟩) ([.h p none, .h q none] ++ [.measureAll]) := by
  have hne : dims ≠ [] := by rintro rfl; simp at hq
  have h2 := ge_two_of_valid h
  have hf := startLevels_fits h
  generalize hs : startLevels dims init = s at *
  have vp : ∀ k ∈ [Call.h (R := ℂ) p none], k.Valid dims := by
    simp only [List.mem_singleton, forall_eq]; exact ⟨⟨by omega, by omega⟩, .inl rfl⟩
  have vpq : ∀ k ∈ [Call.h (R := ℂ) p none, .h q none], k.Valid dims := by
    simp only [List.mem_cons, List.not_mem_nil, or_false, forall_eq_or_imp, forall_eq]
    exact ⟨⟨⟨by omega, by omega⟩, .inl rfl⟩, ⟨⟨by omega, by omega⟩, .inl rfl⟩⟩
  have dp := h2 (dims.getD p 0) (by rw [List.getD_eq_getElem _ _ hp]; exact List.getElem_mem hp)
  have dq := h2 (dims.getD q 0) (by rw [List.getD_eq_getElem _ _ hq]; exact List.getElem_mem hq)
  have hsp : p < s.length := by rw [hf.1]; exact hp
  have hsq : q < s.length := by rw [hf.1]; exact hq
  have hH : ∀ d, 2 ≤ d → ∀ i j, hadamard (N.roots d) (N.invSqrt d) d i j ≠ 0 := by
    intro d hd i j e
    have := hadamard_normSq hN hd i j
    rw [e, map_zero] at this
    have hpos : (0 : ℝ) < d := by exact_mod_cast (by omega : 0 < d)
    exact absurd this.symm (by positivity)
  have zero : ∀ t, Fits dims t → t.getD p 0 ≠ t.getD q 0 → amplitude N B dims init ([.h p none] ++ ks) t = 0 := by
    intro t ht hpt
    rw [C96_copied hN.sized hB hne h2 h hpq hp hq vp hks ?_ ht, if_neg (fun e => hpt e.symm)]
    intro u hu hu0
    rw [amplitude_eq hN.sized hB hne h vp hu, stateAfter_eq, hs] at hu0
    change onReg (dims.getD p 0) p (hadamard (N.roots (dims.getD p 0)) (N.invSqrt (dims.getD p 0)) (dims.getD p 0)) (basis s) u ≠ 0 at hu0
    rw [onReg_basis hf hu hp] at hu0
    have e : u.set p (s.getD p 0) = s := by
      by_contra e
      rw [if_neg e] at hu0
      exact hu0 rfl
    have hul : p < u.length := by rw [hu.1]; exact hp
    have e' : u = s.set p (u.getD p 0) := by
      rw [← e, List.set_set, set_getD_self hul]
    refine ⟨?_, e' ▸ hcopy _ (fits_getD_lt hu p hp)⟩
    rw [e', getD_set_ne hpq, hq0]
  have hw : Fits dims ((s.set p 0).set q 1) := fits_set (fits_set hf _ _ (by omega)) _ _ (by omega)
  have one : amplitude N B dims init ([.h p none, .h q none]) ((s.set p 0).set q 1) ≠ 0 := by
    rw [amplitude_eq hN.sized hB hne h vpq hw, stateAfter_eq, hs]
    change onReg (dims.getD q 0) q (hadamard (N.roots (dims.getD q 0)) (N.invSqrt (dims.getD q 0)) (dims.getD q 0))
      (onReg (dims.getD p 0) p (hadamard (N.roots (dims.getD p 0)) (N.invSqrt (dims.getD p 0)) (dims.getD p 0)) (basis s)) _ ≠ 0
    rw [onReg]
    rw [map_congr_sum (g := fun k => if 0 = k then hadamard (N.roots (dims.getD q 0)) (N.invSqrt (dims.getD q 0)) (dims.getD q 0) 1 k *
        hadamard (N.roots (dims.getD p 0)) (N.invSqrt (dims.getD p 0)) (dims.getD p 0) 0 (s.getD p 0) else 0),
      sum_ite_eq _ List.nodup_range _ (List.mem_range.2 (by omega)) (fun k => hadamard (N.roots (dims.getD q 0)) (N.invSqrt (dims.getD q 0)) (dims.getD q 0) 1 k *
        hadamard (N.roots (dims.getD p 0)) (N.invSqrt (dims.getD p 0)) (dims.getD p 0) 0 (s.getD p 0))]
    · exact mul_ne_zero (hH _ dq _ _) (hH _ dp _ _)
    · intro k hk
      have hk := List.mem_range.1 hk
      rw [onReg_basis hf (fits_set hw _ _ hk) hp, getD_set_self (by simpa using hsq), List.set_set, getD_set_ne (fun e => hpq e.symm),
        getD_set_self hsp]
      have e : ((s.set p 0).set q k).set p (s.getD p 0) = s.set q k := by
        rw [List.set_comm _ _ (fun e => hpq e.symm), List.set_set, set_getD_self hsp]
      rw [e]
      by_cases k0 : k = 0
      · subst k0
        rw [if_pos (by conv_rhs => rw [← set_getD_self hsq, hq0]), if_pos rfl]
      · rw [if_neg, if_neg (fun e => k0 e.symm), mul_zero]
        intro e
        have := getD_set_self (k := k) hsq
        rw [e] at this
        omega
  refine ⟨zero, one, fun e => one ?_⟩
  have := zero _ hw (by rw [getD_set_ne (fun e => hpq e.symm), getD_set_self hsp, getD_set_self (by simpa using hsq)]; omega)
  rw [← this]
  unfold amplitude
  rw [e]

/-- The hypotheses are met: `copyCalls` copies a qutrit beside two others. -/
example : script standardN (numpyBackend ℂ) (.list ([3, 2, 3].map Int.ofNat)) [2, 1] (some ⟨[3, 2, 3], .state, .amplitude⟩)
      ([.h 0 none] ++ copyCalls ℂ 3 0 2 ++ [.measureAll]) ≠
    script standardN (numpyBackend ℂ) (.list ([3, 2, 3].map Int.ofNat)) [2, 1] (some ⟨[3, 2, 3], .state, .amplitude⟩)
      ([.h 0 none, .h 2 none] ++ [.measureAll]) :=
  (C96_no_copy standardN_exact numpy_lawful (dims := [3, 2, 3]) (init := [2, 1]) (validStart_of rfl) (p := 0) (q := 2) (by decide) (by decide)
    (by decide) rfl (copyCalls_valid (p := 0) (q := 2) (by decide) (by decide)) (fun j hj =>
      (C96_levels_copied standardN_exact.sized numpy_lawful (by decide) (by decide) (p := 0) (q := 2) (by decide) (by decide) (by decide) (by decide)
        (fits_set (startLevels_fits (validStart_of rfl)) _ _ hj) rfl).2)).2.2

/-- `C96_copied` on a superposition of a qubit: after `h` on it and `cx` onto another qubit, only `00` and `11` occur. -/
example {t : List Nat} (ht : Fits [2, 2] t) :
    amplitude standardN (numpyBackend ℂ) [2, 2] [] ([.h 0 none] ++ copyCalls ℂ 2 0 1) t =
      if t.getD 1 0 = t.getD 0 0 then amplitude standardN (numpyBackend ℂ) [2, 2] [] [.h 0 none] (t.set 1 0) else 0 := by
  refine C96_copied standardN_exact.sized numpy_lawful (by decide) (by decide) (validStart_of rfl) (by decide) (by decide) (by decide)
    (by simp [Call.Valid, InRange, DimOK]) (copyCalls_valid (dims := [2, 2]) (p := 0) (q := 1) (by decide) (by decide)) ?_ ht
  intro u hu h0
  have : u.getD 1 0 = 0 := by
    rw [amplitude_eq standardN_exact.sized numpy_lawful (by decide) (validStart_of rfl) (by simp [Call.Valid, InRange, DimOK]) hu, stateAfter_eq] at h0
    by_contra e
    apply h0
    change onReg ([2, 2].getD 0 0) 0 _ (basis (startLevels [2, 2] [])) u = 0
    rw [onReg_basis (startLevels_fits (validStart_of rfl)) hu (by decide), if_neg]
    intro e'
    apply e
    have := congrArg (fun l => l.getD 1 0) e'
    simpa [startLevels] using this
  exact ⟨this, (C96_levels_copied standardN_exact.sized numpy_lawful (by decide) (by decide) (by decide) (by decide) (by decide) (by decide) hu this).2⟩

end
end QuDiet
