import Verif.Props.Algorithms

/-! # C63–C65: entangled chains, exchanging qubits, teleportation -/

namespace QuDiet
open Spec

section
variable {R : Type} [CommRing R] [StarRing R] [DecidableEq R] [UnitaryCheck R]

/-- Calls that take levels to levels, on any state. -/
theorem applyAll_classical (N : Numerics R) {dims : List Nat} {ks : List (Call R)} (hv : ∀ k ∈ ks, k.Valid dims)
    (hc : ∀ k ∈ ks, k.Classical) (ψ : State R) {s : List Nat} (hs : Fits dims s) :
    applyAll N dims ks ψ s = ((states dims).map fun t =>
      ψ t * if s = ks.foldl (fun s k => classicalStep dims k s) t then 1 else 0).sum := by
  rw [applyAll_expand N hv ψ hs]
  apply map_congr_sum
  intro t ht
  unfold applyAll
  rw [(classical_fold (N := N) ks hv hc (mem_states.1 ht)).2]
  rfl

/-- … and they can be undone by `g`. -/
theorem applyAll_invertible (N : Numerics R) {dims : List Nat} {ks : List (Call R)} (hv : ∀ k ∈ ks, k.Valid dims)
    (hc : ∀ k ∈ ks, k.Classical) {g : List Nat → List Nat} (hg : ∀ s, Fits dims s → Fits dims (g s))
    (h1 : ∀ t, Fits dims t → g (ks.foldl (fun s k => classicalStep dims k s) t) = t)
    (h2 : ∀ t, Fits dims t → ks.foldl (fun s k => classicalStep dims k s) (g t) = t)
    (ψ : State R) {s : List Nat} (hs : Fits dims s) : applyAll N dims ks ψ s = ψ (g s) := by
  rw [applyAll_classical N hv hc ψ hs]
  have : ((states dims).map fun t => ψ t * if s = ks.foldl (fun s k => classicalStep dims k s) t then 1 else 0) =
      (states dims).map fun t => if g s = t then ψ t else 0 := by
    apply List.map_congr_left
    intro t ht
    by_cases h : g s = t
    · rw [if_pos h, if_pos (by rw [← h, h2 s hs]), mul_one]
    · rw [if_neg h, if_neg (by rintro rfl; exact h (h1 t (mem_states.1 ht))), mul_zero]
  rw [this, sum_ite_eq _ (nodup_states dims) _ (mem_states.2 (hg s hs))]

end

/-! ### C63: a chain of `cx` entangles all registers -/

/-- `h` on register 0, then `cx` from each register to the next, adding the top level of the next. -/
def chain {R : Type} (dims : List Nat) : List (Call R) :=
  .h 0 none :: (List.range (dims.length - 1)).map fun (i : Nat) =>
    .cx (Int.ofNat i) (Int.ofNat (i + 1)) (Int.ofNat (dims.getD (i + 1) 0 - 1))

section
variable [UnitaryCheck ℂ] {N : Numerics ℂ}

/-- The first `m` registers at their top level, the others at 0. -/
def topUpto (dims : List Nat) (m : Nat) : List Nat :=
  (List.range dims.length).map fun i => if i < m then dims.getD i 0 - 1 else 0

theorem topUpto_getD {dims : List Nat} {m i : Nat} (hi : i < dims.length) :
    (topUpto dims m).getD i 0 = if i < m then dims.getD i 0 - 1 else 0 := by
  rw [List.getD_eq_getElem?_getD, topUpto, List.getElem?_map, List.getElem?_range hi]
  rfl

theorem topUpto_step {dims : List Nat} (hd : ∀ d ∈ dims, 2 ≤ d) {m : Nat} (hm : m + 1 < dims.length) :
    controlled dims [m] (m + 1) (Int.ofNat (dims.getD (m + 1) 0 - 1)) (topUpto dims (m + 1)) = topUpto dims (m + 2) := by
  have hdm : ∀ i, i < dims.length → 2 ≤ dims.getD i 0 := by
    intro i hi
    rw [List.getD_eq_getElem?_getD, List.getElem?_eq_getElem hi]
    exact hd _ (List.getElem_mem hi)
  have h1 := hdm m (by omega)
  have h2 := hdm (m + 1) hm
  unfold controlled
  rw [if_pos]
  · unfold bump
    rw [topUpto_getD hm, if_neg (by omega)]
    apply List.ext_getElem
    · simp [topUpto]
    · intro i h3 h4
      have hi : i < dims.length := by simpa [topUpto] using h4
      rw [List.getElem_set]
      split
      · subst_vars
        simp only [topUpto, List.getElem_map, List.getElem_range]
        rw [if_pos (by omega)]
        simp only [Int.ofNat_eq_natCast, CharP.cast_eq_zero, zero_add]
        rw [Int.emod_eq_of_lt (by omega) (by omega)]
        simp
      · simp only [topUpto, List.getElem_map, List.getElem_range]
        by_cases hlt : i < m + 1
        · rw [if_pos hlt, if_pos (by omega)]
        · rw [if_neg hlt, if_neg (by omega)]
  · intro c hc
    rw [List.mem_singleton.1 hc]
    unfold atTop
    rw [topUpto_getD (by omega), if_pos (by omega)]
    omega

theorem chain_fold_top {dims : List Nat} (hd : ∀ d ∈ dims, 2 ≤ d) {m : Nat} (hm : m < dims.length) :
    ((List.range m).map fun (i : Nat) => (Call.cx (Int.ofNat i) (Int.ofNat (i + 1))
      (Int.ofNat (dims.getD (i + 1) 0 - 1)) : Call ℂ)).foldl (fun s k => classicalStep dims k s) (topUpto dims 1) =
      topUpto dims (m + 1) := by
  induction m with
  | zero => rfl
  | succ m ih =>
    rw [List.range_succ, List.map_append, List.foldl_append, ih (by omega)]
    exact topUpto_step hd hm

theorem getD_replicate' {n i a : Nat} (h : i < n) : (List.replicate n a).getD i 0 = a := by
  simp [h]

theorem chain_fold_low {dims : List Nat} (hd : ∀ d ∈ dims, 2 ≤ d) {k m : Nat} (hk : k + 1 ≠ dims.getD 0 0)
    (hm : m < dims.length) :
    ((List.range m).map fun (i : Nat) => (Call.cx (Int.ofNat i) (Int.ofNat (i + 1))
      (Int.ofNat (dims.getD (i + 1) 0 - 1)) : Call ℂ)).foldl (fun s k => classicalStep dims k s)
        (k :: List.replicate (dims.length - 1) 0) = k :: List.replicate (dims.length - 1) 0 := by
  induction m with
  | zero => rfl
  | succ m ih =>
    rw [List.range_succ, List.map_append, List.foldl_append, ih (by omega)]
    have h2 : 2 ≤ dims.getD m 0 := by
      rw [List.getD_eq_getElem?_getD, List.getElem?_eq_getElem (by omega)]
      exact hd _ (List.getElem_mem _)
    change controlled dims [m] (m + 1) _ _ = _
    unfold controlled
    rw [if_neg]
    intro h
    have h := h m (by simp)
    unfold atTop at h
    cases m with
    | zero => exact hk h
    | succ m =>
      rw [List.getD_cons_succ, getD_replicate' (by omega)] at h
      omega

theorem chain_valid {dims : List Nat} (hne : dims ≠ []) : ∀ k ∈ (chain dims : List (Call ℂ)), k.Valid dims := by
  have hl := List.length_pos_iff.2 hne
  intro k hk
  rcases List.mem_cons.1 hk with rfl | hk
  · simp [Call.Valid, InRange, DimOK, hl]
  · obtain ⟨i, hi, rfl⟩ := List.mem_map.1 hk
    have := List.mem_range.1 hi
    simp [Call.Valid, InRange]
    omega

theorem sum_mem_ite {l : List (List Nat)} (hl : l.Nodup) (s : List Nat) (r : ℂ) :
    (l.map fun a => if s = a then r else 0).sum = if s ∈ l then r else 0 := by
  by_cases h : s ∈ l
  · rw [if_pos h]
    exact sum_ite_eq l hl s h fun _ => r
  · rw [if_neg h]
    apply List.sum_eq_zero
    intro a ha
    obtain ⟨b, hb, rfl⟩ := List.mem_map.1 ha
    rw [if_neg (by rintro rfl; exact h hb)]

/-- **C63.** Registers of any dimensions, all at level 0; `h` on register 0 and then the chain of `cx`. The outcomes
are: register 0 at a level below the top and all others at 0, and all registers at their top levels, each with
amplitude one over the square root of the dimension of register 0. -/
theorem C63_chain (hN : N.Exact) {B : Backend ℂ} (hB : B.Lawful) {d : Nat} {ds : List Nat}
    (hd : ∀ e ∈ d :: ds, 2 ≤ e) (s : List Nat) :
    amplitude N B (d :: ds) [] (chain (d :: ds)) s =
      if s ∈ ((List.range (d - 1)).map fun k => k :: List.replicate ds.length 0) ++ [(d :: ds).map (· - 1)]
      then ((1 / Real.sqrt d : ℝ) : ℂ) else 0 := by
  have hd0 := hd d (by simp)
  have h0 : ValidStart ((d :: ds).map Int.ofNat) [] := by
    refine ⟨?_, by simp, by simp⟩
    intro d' hd'
    obtain ⟨e, he, rfl⟩ := List.mem_map.1 hd'
    have := hd e he
    simp
    omega
  have hv := chain_valid (dims := d :: ds) (by simp)
  have hzf : Fits ds (List.replicate ds.length 0) := fits_zero fun e he => hd e (by simp [he])
  have htop : topUpto (d :: ds) (d :: ds).length = (d :: ds).map (· - 1) := by
    rw [topUpto, ← map_range_getD (· - 1)]
    apply List.map_congr_left
    intro i hi
    rw [if_pos (List.mem_range.1 hi)]
  have htopf : Fits (d :: ds) ((d :: ds).map (· - 1)) := by
    refine ⟨by simp, ?_⟩
    intro i h1 h2
    have := hd (d :: ds)[i] (List.getElem_mem h2)
    simp only [List.getElem_map]
    omega
  by_cases hs : Fits (d :: ds) s
  · rw [amplitude_eq hN.sized hB (by simp) h0 hv hs, stateAfter_eq, startLevels_nil]
    have happ : chain (d :: ds) = [.h 0 none] ++ ((List.range ((d :: ds).length - 1)).map fun (i : Nat) =>
      (Call.cx (Int.ofNat i) (Int.ofNat (i + 1)) (Int.ofNat ((d :: ds).getD (i + 1) 0 - 1)) : Call ℂ)) := rfl
    rw [happ, applyAll_append, applyAll_classical N (fun k hk => hv k (by rw [happ]; exact List.mem_append_right _ hk))
      (by intro k hk; obtain ⟨i, -, rfl⟩ := List.mem_map.1 hk; trivial) _ hs]
    have hone : (hOnFirst 1 : List (Call ℂ)) = [.h 0 none] := rfl
    have e1 : ∀ k < d, ∀ u, Fits ds u → applyAll N (d :: ds) [.h 0 none] (basis (List.replicate (d :: ds).length 0)) (k :: u) =
        N.invSqrt d * if u = List.replicate ds.length 0 then 1 else 0 := by
      intro k hk u hu
      rw [← hone, applyAll_hOnFirst N (by simp) (fits_zero hd) (fits_cons'.2 ⟨hk, hu⟩)]
      simp [hEntry, hadamard, List.replicate_succ]
    have e2 : ∀ k < d, ((List.range ((d :: ds).length - 1)).map fun (i : Nat) =>
        (Call.cx (Int.ofNat i) (Int.ofNat (i + 1)) (Int.ofNat ((d :: ds).getD (i + 1) 0 - 1)) : Call ℂ)).foldl
          (fun s k => classicalStep (d :: ds) k s) (k :: List.replicate ds.length 0) =
        if k < d - 1 then k :: List.replicate ds.length 0 else (d :: ds).map (· - 1) := by
      intro k hk
      by_cases hlt : k < d - 1
      · rw [if_pos hlt]
        exact chain_fold_low hd (by simp; omega) (by simp)
      · rw [if_neg hlt, ← htop]
        have : k :: List.replicate ds.length 0 = topUpto (d :: ds) 1 := by
          apply List.ext_getElem
          · simp [topUpto]
          · intro i h1 h2
            cases i with
            | zero => simp [topUpto]; omega
            | succ i => simp [topUpto]
        rw [this, chain_fold_top hd (by simp)]
        simp
    have e3 : ((states (d :: ds)).map fun t => applyAll N (d :: ds) [.h 0 none]
          (basis (List.replicate (d :: ds).length 0)) t * if s = ((List.range ((d :: ds).length - 1)).map fun (i : Nat) =>
        (Call.cx (Int.ofNat i) (Int.ofNat (i + 1)) (Int.ofNat ((d :: ds).getD (i + 1) 0 - 1)) : Call ℂ)).foldl
          (fun s k => classicalStep (d :: ds) k s) t then 1 else 0).sum =
        ((List.range d).map fun k => if s = (if k < d - 1 then k :: List.replicate ds.length 0 else (d :: ds).map (· - 1))
          then N.invSqrt d else 0).sum := by
      rw [states, List.map_flatMap, sum_flatMap]
      apply map_congr_sum
      intro k hk
      have hk := List.mem_range.1 hk
      rw [List.map_map]
      have : ((states ds).map ((fun t => applyAll N (d :: ds) [.h 0 none]
          (basis (List.replicate (d :: ds).length 0)) t * if s = ((List.range ((d :: ds).length - 1)).map fun (i : Nat) =>
        (Call.cx (Int.ofNat i) (Int.ofNat (i + 1)) (Int.ofNat ((d :: ds).getD (i + 1) 0 - 1)) : Call ℂ)).foldl
          (fun s k => classicalStep (d :: ds) k s) t then 1 else 0) ∘ (k :: ·))) =
          (states ds).map fun u => if List.replicate ds.length 0 = u then
            (if s = (if k < d - 1 then k :: List.replicate ds.length 0 else (d :: ds).map (· - 1))
              then N.invSqrt d else 0) else 0 := by
        apply List.map_congr_left
        intro u hu
        simp only [Function.comp]
        rw [e1 k hk u (mem_states.1 hu)]
        by_cases h : List.replicate ds.length 0 = u
        · subst h
          rw [e2 k hk]
          simp
        · rw [if_neg h, if_neg (Ne.symm h)]
          simp
      rw [this, sum_ite_eq _ (nodup_states ds) _ (mem_states.2 hzf)]
    rw [e3]
    have e4 : ((List.range d).map fun k => if k < d - 1 then k :: List.replicate ds.length 0 else (d :: ds).map (· - 1)) =
        ((List.range (d - 1)).map fun k => k :: List.replicate ds.length 0) ++ [(d :: ds).map (· - 1)] := by
      obtain ⟨e, rfl⟩ : ∃ e, d = e + 1 := ⟨d - 1, by omega⟩
      rw [List.range_succ, List.map_append]
      congr 1
      · apply List.map_congr_left
        intro k hk
        rw [if_pos (by have := List.mem_range.1 hk; omega)]
      · simp
    rw [← e4, ← hN.invSqrt d (by omega), ← sum_mem_ite, List.map_map]
    · rfl
    · rw [e4]
      apply List.Nodup.append
      · exact List.Nodup.map (fun a b h => (List.cons.inj h).1) List.nodup_range
      · simp
      · intro t h1 h2
        obtain ⟨k, hk, rfl⟩ := List.mem_map.1 h1
        have := List.mem_range.1 hk
        simp at h2
        omega
  · rw [amplitude_unfit hN.sized hB (by simp) h0 hv hs, if_neg]
    intro hm
    rcases List.mem_append.1 hm with hm | hm
    · obtain ⟨k, hk, rfl⟩ := List.mem_map.1 hm
      have := List.mem_range.1 hk
      exact hs (fits_cons'.2 ⟨by omega, hzf⟩)
    · rw [List.mem_singleton.1 hm] at hs
      exact hs htopf

/-- On qubits this is the GHZ state: only all-0 and all-1, with amplitude `1/√2` each. -/
theorem C63_ghz (hN : N.Exact) {B : Backend ℂ} (hB : B.Lawful) (n : Nat) (s : List Nat) :
    amplitude N B (List.replicate (n + 1) 2) []
        (.h 0 none :: (List.range n).map fun (i : Nat) => .cx (Int.ofNat i) (Int.ofNat (i + 1)) 1) s =
      if s = List.replicate (n + 1) 0 ∨ s = List.replicate (n + 1) 1 then ((1 / Real.sqrt 2 : ℝ) : ℂ) else 0 := by
  have := C63_chain hN hB (d := 2) (ds := List.replicate n 2) (by
    intro e he
    rw [← List.replicate_succ] at he
    rw [List.eq_of_mem_replicate he]) s
  have hc : (chain (2 :: List.replicate n 2) : List (Call ℂ)) =
      .h 0 none :: (List.range n).map fun (i : Nat) => .cx (Int.ofNat i) (Int.ofNat (i + 1)) 1 := by
    simp only [chain, List.length_cons, List.length_replicate, Nat.add_sub_cancel]
    congr 1
    apply List.map_congr_left
    intro i hi
    rw [List.getD_cons_succ, getD_replicate' (List.mem_range.1 hi)]
    rfl
  rw [hc] at this
  rw [List.replicate_succ, this]
  congr 1
  simp [List.replicate_succ]

/-- The hypotheses are met by a qutrit, a qubit and a register of four levels. -/
example : amplitude standardN (numpyBackend ℂ) [3, 2, 4] []
    [.h 0 none, .cx 0 1 1, .cx 1 2 3] [2, 1, 3] = ((1 / Real.sqrt 3 : ℝ) : ℂ) := by
  have := C63_chain standardN_exact numpy_lawful (d := 3) (ds := [2, 4]) (by simp) [2, 1, 3]
  refine Eq.trans this ?_
  simp

end

/-! ### C64: three `cx` exchange two qubits -/

section
variable {R : Type} [CommRing R] [StarRing R] [DecidableEq R] [UnitaryCheck R] [Nontrivial R]

/-- The levels of registers `a` and `b` exchanged. -/
def exchange (a b : Nat) (s : List Nat) : List Nat := (s.set a (s.getD b 0)).set b (s.getD a 0)

theorem exchange_parts {s : List Nat} {a b : Nat} (hab : a ≠ b) (ha : a < s.length) (hb : b < s.length) :
    (exchange a b s).getD a 0 = s.getD b 0 ∧ (exchange a b s).getD b 0 = s.getD a 0 := by
  unfold exchange
  rw [getD_set_ne hab.symm, getD_set_self ha, getD_set_self (by simpa using hb)]
  exact ⟨rfl, rfl⟩

theorem exchange_exchange {s : List Nat} {a b : Nat} (hab : a ≠ b) (ha : a < s.length) (hb : b < s.length) :
    exchange a b (exchange a b s) = s := by
  obtain ⟨h1, h2⟩ := exchange_parts hab ha hb
  rw [exchange, h1, h2]
  unfold exchange
  apply List.ext_getElem
  · simp
  · intro i h3 h4
    simp only [List.getElem_set]
    by_cases hib : b = i
    · subst hib
      simp [h4]
    · by_cases hia : a = i
      · subst hia
        simp [hib, h4]
      · simp [hib, hia]

theorem cx_bits {dims s : List Nat} {a b u v : Nat} (hab : a ≠ b) (ha : a < s.length) (hb : b < s.length)
    (hda : dims.getD a 0 = 2) (hdb : dims.getD b 0 = 2) :
    controlled dims [a] b 1 ((s.set a u).set b v) = (s.set a u).set b (if u = 1 then (v + 1) % 2 else v) := by
  have e1 : ((s.set a u).set b v).getD a 0 = u := by rw [getD_set_ne hab.symm, getD_set_self ha]
  have e2 : ((s.set a u).set b v).getD b 0 = v := getD_set_self (by simpa using hb)
  unfold controlled
  simp only [List.mem_singleton, forall_eq, atTop, e1, hda]
  by_cases h : u = 1
  · rw [if_pos (by omega), if_pos h]
    unfold bump
    rw [e2, hdb, List.set_set]
    congr 1
  · rw [if_neg (by omega), if_neg h]

theorem set_bits {s : List Nat} {a b : Nat} (ha : a < s.length) (hb : b < s.length) :
    (s.set a (s.getD a 0)).set b (s.getD b 0) = s := by
  apply List.ext_getElem
  · simp
  · intro i h3 h4
    simp only [List.getElem_set]
    split
    · subst_vars; simp [hb]
    · split
      · subst_vars; simp [ha]
      · rfl

theorem fits_exchange {dims s : List Nat} {a b : Nat} (hs : Fits dims s) (ha : a < dims.length) (hb : b < dims.length)
    (hda : dims.getD a 0 = 2) (hdb : dims.getD b 0 = 2) : Fits dims (exchange a b s) := by
  have h1 := fits_getD_lt hs a ha
  have h2 := fits_getD_lt hs b hb
  rw [List.getD_eq_getElem?_getD, List.getElem?_eq_getElem ha] at hda
  rw [List.getD_eq_getElem?_getD, List.getElem?_eq_getElem hb] at hdb
  rw [show dims.getD a 0 = dims[a] by simp [ha]] at h1
  rw [show dims.getD b 0 = dims[b] by simp [hb]] at h2
  simp only [Option.getD_some] at hda hdb
  refine ⟨by simp [exchange, hs.1], ?_⟩
  intro i h3 h4
  simp only [exchange, List.getElem_set]
  split
  · subst_vars; omega
  · split
    · subst_vars; omega
    · exact hs.2 i (by simpa [exchange] using h3) h4

/-- **C64.** Wherever they are in a circuit, `cx(a, b)`, `cx(b, a)`, `cx(a, b)` on two qubits exchange what is in them:
the amplitude of `s` afterwards is the amplitude before of `s` with the two levels exchanged. The other registers may
have any dimensions. -/
theorem C64_swap {N : Numerics R} (hN : N.Sized) {B : Backend R} (hB : B.Lawful) {dims : List Nat}
    {init : List Int} (h : ValidStart (dims.map Int.ofNat) init) {pre : List (Call R)}
    (hpre : ∀ k ∈ pre, k.Valid dims) {a b : Nat} (hab : a ≠ b) (ha : dims[a]? = some 2) (hb : dims[b]? = some 2)
    {s : List Nat} (hs : Fits dims s) :
    amplitude N B dims init (pre ++ [.cx a b 1, .cx b a 1, .cx a b 1]) s =
      amplitude N B dims init pre (exchange a b s) := by
  obtain ⟨ha', hda⟩ := List.getElem?_eq_some_iff.1 ha
  obtain ⟨hb', hdb⟩ := List.getElem?_eq_some_iff.1 hb
  have hne : dims ≠ [] := by rintro rfl; simp at ha'
  have hda' : dims.getD a 0 = 2 := by simp [ha]
  have hdb' : dims.getD b 0 = 2 := by simp [hb]
  have hk : ∀ k ∈ ([.cx a b 1, .cx b a 1, .cx a b 1] : List (Call R)), k.Valid dims := by
    intro k hk
    simp only [List.mem_cons, List.not_mem_nil, or_false] at hk
    rcases hk with rfl | rfl | rfl <;> simp [Call.Valid, InRange, ha', hb']
  have hc : ∀ k ∈ ([.cx a b 1, .cx b a 1, .cx a b 1] : List (Call R)), k.Classical := by
    intro k hk
    simp only [List.mem_cons, List.not_mem_nil, or_false] at hk
    rcases hk with rfl | rfl | rfl <;> trivial
  have hfold : ∀ t, Fits dims t → ([.cx a b 1, .cx b a 1, .cx a b 1] : List (Call R)).foldl
      (fun s k => classicalStep dims k s) t = exchange a b t := by
    intro t ht
    have hla : a < t.length := by rw [ht.1]; exact ha'
    have hlb : b < t.length := by rw [ht.1]; exact hb'
    have h1 := fits_getD_lt ht a ha'
    have h2 := fits_getD_lt ht b hb'
    rw [hda'] at h1
    rw [hdb'] at h2
    simp only [List.foldl_cons, List.foldl_nil, classicalStep, Int.toNat_natCast]
    conv_lhs => rw [← set_bits (s := t) hla hlb]
    rw [cx_bits hab hla hlb hda' hdb', List.set_comm _ _ hab, cx_bits hab.symm hlb hla hdb' hda',
      List.set_comm _ _ hab.symm, cx_bits hab hla hlb hda' hdb']
    unfold exchange
    have h1 : t.getD a 0 = 0 ∨ t.getD a 0 = 1 := by omega
    have h2 : t.getD b 0 = 0 ∨ t.getD b 0 = 1 := by omega
    rcases h1 with h1 | h1 <;> rcases h2 with h2 | h2 <;> simp only [h1, h2] <;> rfl
  have hex : ∀ t, Fits dims t → Fits dims (exchange a b t) := fun t ht => fits_exchange ht ha' hb' hda' hdb'
  have hee : ∀ t, Fits dims t → exchange a b (exchange a b t) = t := fun t ht =>
    exchange_exchange hab (by rw [ht.1]; exact ha') (by rw [ht.1]; exact hb')
  rw [amplitude_eq hN hB hne h (by
      intro k hk'
      rcases List.mem_append.1 hk' with hk' | hk'
      · exact hpre k hk'
      · exact hk k hk') hs, amplitude_eq hN hB hne h hpre (hex s hs), stateAfter_eq, stateAfter_eq, applyAll_append]
  apply applyAll_invertible N hk hc hex _ _ _ hs
  · intro t ht
    rw [hfold t ht, hee t ht]
  · intro t ht
    rw [hfold _ (hex t ht), hee t ht]

/-- The hypotheses are met with a qutrit between the two qubits; and on two qutrits, three `cx` do something else. -/
example : amplitude sampleN (numpyBackend ℤ) [2, 3, 2] [1, 2, 0] ([.x 1 none 1] ++ [.cx 0 2 1, .cx 2 0 1, .cx 0 2 1])
    [0, 0, 1] = amplitude sampleN (numpyBackend ℤ) [2, 3, 2] [1, 2, 0] [.x 1 none 1] [1, 0, 0] :=
  C64_swap (a := 0) (b := 2) sampleN_sized numpy_lawful (dims := [2, 3, 2]) (validStart_of rfl)
    (by simp [Call.Valid, InRange, DimOK]) (by decide) rfl rfl (mem_states.1 (by decide))

theorem C64_qutrits : amplitude sampleN (numpyBackend ℤ) [3, 3] [2, 0] [.cx 0 1 1, .cx 1 0 1, .cx 0 1 1] [0, 2] = 0 := by
  decide +kernel

end

/-! ### C65: teleportation -/

section
variable [UnitaryCheck ℂ] {N : Numerics ℂ}

/-- Teleportation from qubit 0 to qubit 2, with the corrections as controlled gates: an entangled pair of qubits 1 and 2,
the change of basis on qubits 0 and 1, and the corrections. -/
def teleport : List (Call ℂ) :=
  [.h 1 none, .cx 1 2 1, .cx 0 1 1, .h 0 none, .cx 1 2 1, .h 2 none, .cx 0 2 1, .h 2 none]

theorem teleport_valid : ∀ k ∈ teleport, k.Valid [2, 2, 2] := by
  simp [teleport, Call.Valid, InRange, DimOK]

theorem h_bit (hN : N.Exact) (ψ : State ℂ) {q : Nat} (hq : q < 3) {s : List Nat} (hs : s ∈ states [2, 2, 2]) :
    meaning N [2, 2, 2] (.h q none) ψ s =
      N.invSqrt 2 * ψ (s.set q 0) + N.invSqrt 2 * (-1) ^ (s.getD q 0) * ψ (s.set q 1) := by
  have hlt := fits_getD_lt (mem_states.1 hs) q (by simpa using hq)
  have h2 : [2, 2, 2].getD q 0 = 2 := by
    have : q = 0 ∨ q = 1 ∨ q = 2 := by omega
    rcases this with rfl | rfl | rfl <;> rfl
  rw [h2] at hlt
  simp only [meaning, onReg, Int.toNat_natCast, h2]
  rw [range_two]
  simp only [List.map_cons, List.map_nil, List.sum_cons, List.sum_nil, add_zero]
  rw [hadamard_two hN hlt (by omega), hadamard_two hN hlt (by omega)]
  simp

theorem cx_bit (ψ : State ℂ) {a b : Int} (hv : (Call.cx a b 1 : Call ℂ).Valid [2, 2, 2])
    (hi : ∀ t ∈ states [2, 2, 2], controlled [2, 2, 2] [a.toNat] b.toNat 1
      (controlled [2, 2, 2] [a.toNat] b.toNat 1 t) = t) {s : List Nat} (hs : s ∈ states [2, 2, 2]) :
    meaning N [2, 2, 2] (.cx a b 1) ψ s = ψ (controlled [2, 2, 2] [a.toNat] b.toNat 1 s) := by
  refine applyAll_invertible N (ks := [.cx a b 1]) (by simpa using hv) (by simp [Call.Classical]) ?_ ?_ ?_ ψ
    (mem_states.1 hs)
  · intro t ht
    have := hv.2.1
    have := hv.2.2
    exact fits_controlled ht _ _ (by omega) _
  · intro t ht
    exact hi t (mem_states.2 ht)
  · intro t ht
    exact hi t (mem_states.2 ht)

theorem teleport_state (hN : N.Exact) (ψ : State ℂ) (h : ∀ t ∈ states [2, 2, 2], t.drop 1 ≠ [0, 0] → ψ t = 0)
    {s : List Nat} (hs : s ∈ states [2, 2, 2]) :
    applyAll N [2, 2, 2] teleport ψ s = 1 / 2 * ψ [s.getD 2 0, 0, 0] := by
  have z1 := h [0, 0, 1] (by decide) (by decide)
  have z2 := h [0, 1, 0] (by decide) (by decide)
  have z3 := h [0, 1, 1] (by decide) (by decide)
  have z4 := h [1, 0, 1] (by decide) (by decide)
  have z5 := h [1, 1, 0] (by decide) (by decide)
  have z6 := h [1, 1, 1] (by decide) (by decide)
  have hr := invSqrt_two_sq hN
  have c12 : ∀ (ψ : State ℂ) {s : List Nat}, s ∈ states [2, 2, 2] → meaning N [2, 2, 2] (.cx 1 2 1) ψ s =
      ψ (controlled [2, 2, 2] [1] 2 1 s) := fun ψ s hs =>
    cx_bit ψ (by simp [Call.Valid, InRange]) (by decide) hs
  have c01 : ∀ (ψ : State ℂ) {s : List Nat}, s ∈ states [2, 2, 2] → meaning N [2, 2, 2] (.cx 0 1 1) ψ s =
      ψ (controlled [2, 2, 2] [0] 1 1 s) := fun ψ s hs =>
    cx_bit ψ (by simp [Call.Valid, InRange]) (by decide) hs
  have c02 : ∀ (ψ : State ℂ) {s : List Nat}, s ∈ states [2, 2, 2] → meaning N [2, 2, 2] (.cx 0 2 1) ψ s =
      ψ (controlled [2, 2, 2] [0] 2 1 s) := fun ψ s hs =>
    cx_bit ψ (by simp [Call.Valid, InRange]) (by decide) hs
  have h0 : ∀ (ψ : State ℂ) {s : List Nat}, s ∈ states [2, 2, 2] → meaning N [2, 2, 2] (.h 0 none) ψ s = _ :=
    fun ψ s hs => h_bit hN ψ (q := 0) (by omega) hs
  have h1 : ∀ (ψ : State ℂ) {s : List Nat}, s ∈ states [2, 2, 2] → meaning N [2, 2, 2] (.h 1 none) ψ s = _ :=
    fun ψ s hs => h_bit hN ψ (q := 1) (by omega) hs
  have h2 : ∀ (ψ : State ℂ) {s : List Nat}, s ∈ states [2, 2, 2] → meaning N [2, 2, 2] (.h 2 none) ψ s = _ :=
    fun ψ s hs => h_bit hN ψ (q := 2) (by omega) hs
  have hst : states [2, 2, 2] = [[0, 0, 0], [0, 0, 1], [0, 1, 0], [0, 1, 1], [1, 0, 0], [1, 0, 1], [1, 1, 0],
    [1, 1, 1]] := by decide
  have hcases : ∀ {P : List Nat → Prop}, P [0, 0, 0] → P [0, 0, 1] → P [0, 1, 0] → P [0, 1, 1] → P [1, 0, 0] →
      P [1, 0, 1] → P [1, 1, 0] → P [1, 1, 1] → ∀ t ∈ states [2, 2, 2], P t := by
    intro P a b c d e f g h t ht
    rw [hst] at ht
    simp only [List.mem_cons, List.not_mem_nil, or_false] at ht
    rcases ht with rfl | rfl | rfl | rfl | rfl | rfl | rfl | rfl <;> assumption
  have hm : ∀ t ∈ states [2, 2, 2], ∀ q < 3, ∀ k < 2, t.set q k ∈ states [2, 2, 2] := by decide
  -- the entangled pair
  let ψ3 : State ℂ := fun t => N.invSqrt 2 * ψ [t.getD 0 0, 0, 0] *
    if t.getD 2 0 = (t.getD 0 0 + t.getD 1 0) % 2 then 1 else 0
  have e3 : ∀ t ∈ states [2, 2, 2], meaning N [2, 2, 2] (.cx 0 1 1) (meaning N [2, 2, 2] (.cx 1 2 1)
      (meaning N [2, 2, 2] (.h 1 none) ψ)) t = ψ3 t := by
    intro t ht
    rw [c01 _ ht, c12 _ ((by decide : ∀ t ∈ states [2, 2, 2], controlled [2, 2, 2] [0] 1 1 t ∈ states [2, 2, 2]) t ht),
      h1 _ ((by decide : ∀ t ∈ states [2, 2, 2], controlled [2, 2, 2] [1] 2 1 (controlled [2, 2, 2] [0] 1 1 t)
        ∈ states [2, 2, 2]) t ht)]
    revert t
    apply hcases <;> simp [ψ3, controlled, atTop, bump, z1, z2, z3, z4, z5, z6]
  let ψ5 : State ℂ := fun t => 1 / 2 * (-1) ^ (t.getD 0 0 * t.getD 2 0) * ψ [t.getD 2 0, 0, 0]
  have e5 : ∀ t ∈ states [2, 2, 2], meaning N [2, 2, 2] (.cx 1 2 1) (meaning N [2, 2, 2] (.h 0 none) ψ3) t = ψ5 t := by
    intro t ht
    rw [c12 _ ht, h0 _ ((by decide : ∀ t ∈ states [2, 2, 2], controlled [2, 2, 2] [1] 2 1 t ∈ states [2, 2, 2]) t ht)]
    have hr' : N.invSqrt 2 ^ 2 = 1 / 2 := by rw [pow_two, hr]
    revert t
    apply hcases <;> intros <;> simp [ψ3, ψ5, controlled, atTop, bump] <;> ring_nf <;> simp only [hr'] <;> ring
  have e8 : ∀ t ∈ states [2, 2, 2], meaning N [2, 2, 2] (.h 2 none) (meaning N [2, 2, 2] (.cx 0 2 1)
      (meaning N [2, 2, 2] (.h 2 none) ψ5)) t = 1 / 2 * ψ [t.getD 2 0, 0, 0] := by
    intro t ht
    have hc : ∀ t ∈ states [2, 2, 2], controlled [2, 2, 2] [0] 2 1 t ∈ states [2, 2, 2] := by decide
    have m0 := hm t ht 2 (by omega) 0 (by omega)
    have m1 := hm t ht 2 (by omega) 1 (by omega)
    rw [h2 _ ht, c02 _ m0, c02 _ m1, h2 _ (hc _ m0), h2 _ (hc _ m1)]
    have hr' : N.invSqrt 2 ^ 2 = 1 / 2 := by rw [pow_two, hr]
    revert t
    apply hcases <;> intros <;> simp [ψ5, controlled, atTop, bump] <;> ring_nf <;> simp only [hr'] <;> ring
  have v : ∀ k ∈ teleport, k.Valid [2, 2, 2] := teleport_valid
  simp only [teleport, List.forall_mem_cons] at v
  obtain ⟨-, -, -, v4, v5, v6, v7, v8, -⟩ := v
  have s1 := applyAll_congr N (ks := [.h 0 none, .cx 1 2 1, .h 2 none, .cx 0 2 1, .h 2 none]) (dims := [2, 2, 2])
    (by simp [v4, v5, v6, v7, v8]) (fun t ht => e3 t (mem_states.2 ht)) s (mem_states.1 hs)
  have s2 := applyAll_congr N (ks := [.h 2 none, .cx 0 2 1, .h 2 none]) (dims := [2, 2, 2])
    (by simp [v6, v7, v8]) (fun t ht => e5 t (mem_states.2 ht)) s (mem_states.1 hs)
  exact s1.trans (s2.trans (e8 s hs))

/-- **C65.** Three qubits, and any calls after which qubits 1 and 2 are still at level 0 and qubit 0 is in any state.
After the teleportation, the amplitude of the outcome `[i, j, k]` is half the amplitude that `[k, 0, 0]` had: qubit 2 has
the state that qubit 0 had, whatever is seen on qubits 0 and 1. -/
theorem C65_teleport (hN : N.Exact) {B : Backend ℂ} (hB : B.Lawful) {init : List Int} (h : ValidStart [2, 2, 2] init)
    {pre : List (Call ℂ)} (hpre : ∀ k ∈ pre, k.Valid [2, 2, 2])
    (h0 : ∀ i j k, (j, k) ≠ (0, 0) → amplitude N B [2, 2, 2] init pre [i, j, k] = 0)
    {i j k : Nat} (hi : i < 2) (hj : j < 2) (hk : k < 2) :
    amplitude N B [2, 2, 2] init (pre ++ teleport) [i, j, k] = 1 / 2 * amplitude N B [2, 2, 2] init pre [k, 0, 0] := by
  have hf : ∀ {i j k : Nat}, i < 2 → j < 2 → k < 2 → Fits [2, 2, 2] [i, j, k] := by
    intro i j k hi hj hk
    exact fits_cons'.2 ⟨hi, fits_cons'.2 ⟨hj, fits_cons'.2 ⟨hk, by simp [Fits]⟩⟩⟩
  have h : ValidStart ([2, 2, 2].map Int.ofNat) init := h
  rw [amplitude_eq hN.sized hB (by simp) h (by
      intro k hk'
      rcases List.mem_append.1 hk' with hk' | hk'
      · exact hpre k hk'
      · exact teleport_valid k hk') (hf hi hj hk), amplitude_eq hN.sized hB (by simp) h hpre (hf hk (by omega) (by omega)),
    stateAfter_eq, applyAll_append, ← stateAfter_eq, teleport_state hN]
  · simp
  · intro t ht hne
    have ht' := mem_states.1 ht
    rw [← amplitude_eq hN.sized hB (by simp) h hpre ht']
    obtain ⟨a, b, c, rfl⟩ : ∃ a b c, t = [a, b, c] := by
      have := ht'.1
      match t, this with
      | [a, b, c], _ => exact ⟨a, b, c, rfl⟩
    apply h0
    intro he
    simp at he
    simp [he] at hne
  · exact mem_states.2 (hf hi hj hk)

/-- The hypotheses are met by a qubit prepared with `h`. -/
example {i j k : Nat} (hi : i < 2) (hj : j < 2) (hk : k < 2) :
    amplitude standardN (numpyBackend ℂ) [2, 2, 2] [] ([.h 0 none] ++ teleport) [i, j, k] =
      1 / 2 * ((1 / Real.sqrt 2 : ℝ) : ℂ) := by
  have hv : ∀ k ∈ ([.h 0 none] : List (Call ℂ)), k.Valid [2, 2, 2] := by simp [Call.Valid, InRange, DimOK]
  have hst : ValidStart ([2, 2, 2].map Int.ofNat) [] := validStart_of rfl
  have key : ∀ s, s ∈ states [2, 2, 2] → amplitude standardN (numpyBackend ℂ) [2, 2, 2] [] [.h 0 none] s =
      if s.drop 1 = [0, 0] then standardN.invSqrt 2 else 0 := by
    intro s hs
    have hs' := mem_states.1 hs
    rw [amplitude_eq standardN_exact.sized numpy_lawful (by simp) hst hv hs', stateAfter_eq]
    have := applyAll_hOnFirst standardN (dims := [2, 2, 2]) (m := 1) (by simp) (x := [0, 0, 0]) (by simp [Fits]; decide) hs'
    refine Eq.trans this ?_
    simp [hEntry, hadamard]
  rw [C65_teleport standardN_exact numpy_lawful (validStart_of rfl) hv _ hi hj hk, key _ _,
    standardN_exact.invSqrt 2 (by omega)]
  · simp
  · have : k = 0 ∨ k = 1 := by omega
    rcases this with rfl | rfl <;> decide
  · intro i j k hne
    by_cases hs : [i, j, k] ∈ states [2, 2, 2]
    · rw [key _ hs, if_neg]
      intro h
      simp at h
      simp [h] at hne
    · exact amplitude_unfit standardN_exact.sized numpy_lawful (by simp) hst hv (fun h => hs (mem_states.2 h))

end

end QuDiet
