import Verif.Lemmas.Tree3
import Verif.Props.Sequential
import Mathlib.Order.Interval.Finset.Nat
import Mathlib.Algebra.BigOperators.Group.List.Lemmas

/-! # C34, C35: the shipped decomposition of the multi-controlled NOT -/

namespace QuDiet.Tree
open Spec

variable {R : Type} [CommRing R] [StarRing R] [DecidableEq R] [UnitaryCheck R] [Nontrivial R]

/-! ### C34 -/

/-- The bit of node `k`. -/
def bitOf (xs : List Nat) (k : Nat) : Nat :=
  if 1 ≤ k ∧ k ≤ xs.length then xs.getD (pos (xs.length + 1) k) 0 else 0

theorem bitOf_le {xs : List Nat} (hxs : ∀ x ∈ xs, x ≤ 1) (k : Nat) : bitOf xs k ≤ 1 := by
  unfold bitOf
  split
  · rw [List.getD_eq_getElem?_getD]
    cases h : xs[pos (xs.length + 1) k]? with
    | none => simp
    | some v => exact hxs v (List.mem_of_getElem? h)
  · omega

theorem rep_bits (xs : List Nat) (u : Nat) :
    Rep xs.length (fun k => if k = xs.length + 1 then u else bitOf xs k) (xs ++ [u]) := by
  refine ⟨by simp, ?_⟩
  intro k hk hk'
  dsimp only
  split
  · next e =>
    subst e
    rw [pos_self]
    simp
  · next e =>
    have := pos_lt_of hk (show k < xs.length + 1 by omega)
    rw [bitOf, if_pos ⟨hk, by omega⟩, List.getD_eq_getElem?_getD, List.getD_eq_getElem?_getD,
      List.getElem?_append_left (by omega)]

theorem full_bits (xs : List Nat) : Full xs.length (bitOf xs) 1 ↔ ∀ x ∈ xs, x = 1 := by
  constructor
  · intro h x hx
    obtain ⟨i, hi, rfl⟩ := List.mem_iff_getElem.1 hx
    obtain ⟨k, h1, h2, h3⟩ := pos_surj (n := xs.length + 1) (i := i) (by omega)
    have := h k (by omega) (below_one h1)
    rw [bitOf, if_pos ⟨h1, by omega⟩, h3] at this
    simpa [List.getD_eq_getElem?_getD, List.getElem?_eq_getElem hi] using this
  · intro h k hk hb
    have h1 : 1 ≤ k := hb.le
    have h2 := pos_lt_of h1 (show k < xs.length + 1 by omega)
    rw [bitOf, if_pos ⟨h1, hk⟩]
    have h3 : pos (xs.length + 1) k < xs.length := by omega
    rw [List.getD_eq_getElem?_getD, List.getElem?_eq_getElem h3]
    exact h _ (List.getElem_mem h3)

/-- **C34.** `RUN_CIRC(n, bits)` with `n - 1 ≥ 2` control bits `xs` and a target bit `t` returns the label
of the same bits with the target flipped if all controls are 1. -/
theorem C34_multi_controlled_not {N : Numerics R} (hN : N.Sized) {B : Backend R} (hB : B.Lawful)
    (xs : List Nat) (t : Nat) (hlen : 2 ≤ xs.length) (hxs : ∀ x ∈ xs, x ≤ 1) (ht : t ≤ 1) :
    runCirc N B (xs.length + 1) (some ((xs ++ [t]).map Int.ofNat)) =
      .ok (.str (label (xs ++ [if ∀ x ∈ xs, x = 1 then 1 - t else t]))) := by
  obtain ⟨c, hc⟩ : ∃ c, c = xs.length := ⟨_, rfl⟩
  rw [← hc] at hlen ⊢
  obtain ⟨s, hs, hsim⟩ := simulate_eq hlen
  obtain ⟨r, hr⟩ : ∃ r : Result, r =
    { tern := s.tern + 1
      quat := s.quat
      qubits := s.qubits
      qutrits := s.qutrits
      ququads := s.ququads
      finalLevels := s.levels ++ [[(some ⟨c + 1, 1, 1, 2, .dollar, .ternary⟩, none)]] ++ reflection s.levels } := ⟨_, rfl⟩
  rw [← hr] at hsim
  have hq3 : r.qutrits = s.qutrits := by rw [hr]
  have hq4 : r.ququads = s.ququads := by rw [hr]
  have htr := final_triples hs
  rw [show s.levels ++ [[(some ⟨c + 1, 1, 1, 2, .dollar, .ternary⟩, none)]] ++ reflection s.levels = r.finalLevels by rw [hr]] at htr
  have hin : ∀ g ∈ gates r.finalLevels, InTree c (triple g) := by
    intro g hg
    apply network_inTree hlen
    rw [← htr]
    exact List.mem_map_of_mem hg
  -- the registers
  obtain ⟨dims, hdims⟩ : ∃ d, d = registers (c + 1) r := ⟨_, rfl⟩
  have hdl : dims.length = c + 1 := by rw [hdims, registers_length]
  have hne : dims ≠ [] := by rintro h; rw [h] at hdl; cases hdl
  have hd : ∀ k, 1 ≤ k → k ≤ c + 1 → dims.getD (pos (c + 1) k) 0 = dim c k := by
    intro k hk hk'
    rw [hdims]
    exact registers_getD hlen hs hq3 hq4 hk hk'
  have hge : ∀ d ∈ dims, 2 ≤ d := by rw [hdims]; exact registers_ge _ _
  obtain ⟨bits, hbits⟩ : ∃ b, b = xs ++ [t] := ⟨_, rfl⟩
  have hbl : bits.length = c + 1 := by rw [hbits, hc]; simp
  have hb1 : ∀ x ∈ bits, x ≤ 1 := by
    intro x hx
    rw [hbits, List.mem_append, List.mem_singleton] at hx
    rcases hx with h | rfl
    · exact hxs x h
    · exact ht
  rw [← hbits]
  have hval : ValidStart (dims.map Int.ofNat) (bits.map Int.ofNat) := by
    refine ⟨?_, by simp [hdl, hbl], ?_⟩
    · intro d hd'
      obtain ⟨e, he, rfl⟩ := List.mem_map.1 hd'
      have := hge e he
      simp only [Int.ofNat_eq_natCast]
      omega
    · intro i h1 h2
      simp only [List.getElem_map, Int.ofNat_eq_natCast]
      have e1 := hge _ (List.getElem_mem (by simpa using h2))
      have e2 := hb1 _ (List.getElem_mem (by simpa using h1))
      omega
  have hstart : startLevels dims (bits.map Int.ofNat) = bits := by
    apply List.ext_getElem
    · simp [startLevels, hdl, hbl]
    · intro i h1 h2
      have h3 : i < dims.length := by rw [hdl, ← hbl]; exact h2
      simp only [startLevels, List.getElem_map, List.getElem_range, List.getD_eq_getElem?_getD, List.getElem?_map,
        List.getElem?_eq_getElem h2, List.getElem?_eq_getElem h3, Option.map_some, Option.getD_some,
        Int.ofNat_eq_natCast]
      have e1 := hge _ (List.getElem_mem h3)
      have e2 := hb1 _ (List.getElem_mem h2)
      rw [Int.emod_eq_of_lt (by omega) (by omega)]
      omega
  -- the calls
  have hcalls : ∀ k ∈ (gates r.finalLevels).map fun g => callOf (R := R) (c + 1) (triple g),
      k.Valid dims ∧ k.Classical := by
    intro k hk
    obtain ⟨g, hg, rfl⟩ := List.mem_map.1 hk
    obtain ⟨h1, h2, h3, h4, -⟩ := hin g hg
    have e1 := pos_lt h1 h2
    have e2 := pos_lt h3 h4
    refine ⟨⟨⟨by omega, ?_⟩, ⟨by omega, ?_⟩⟩, trivial⟩ <;> rw [hdl] <;> omega
  have hscript := C02_classical_single_outcome hN hB hne hval (fun k hk => (hcalls k hk).1) (fun k hk => (hcalls k hk).2)
  rw [hstart] at hscript
  -- the levels
  have hfold : ((gates r.finalLevels).map fun g => callOf (R := R) (c + 1) (triple g)).foldl
      (fun s k => classicalStep dims k s) bits = xs ++ [if ∀ x ∈ xs, x = 1 then 1 - t else t] := by
    rw [List.foldl_map]
    have e1 : ∀ (s : List Nat) (g : Gate), classicalStep (R := R) dims (callOf (c + 1) (triple g)) s =
        controlled dims [pos (c + 1) (triple g).1] (pos (c + 1) (triple g).2.1) (triple g).2.2 s := fun _ _ => rfl
    simp only [e1]
    have e2 := List.foldl_map (f := triple)
      (g := fun (s : List Nat) (g : Nat × Nat × Int) =>
        controlled dims [pos (c + 1) g.1] (pos (c + 1) g.2.1) g.2.2 s) (l := gates r.finalLevels) (init := bits)
    rw [← e2, htr]
    have h1 := rep_bits xs t
    rw [← hc, ← hbits] at h1
    have h2 := rep_agree (network hlen (bitOf_le hxs) ht) (rep_fold hd _ (network_inTree hlen) h1)
    have h3 := rep_bits xs (if ∀ x ∈ xs, x = 1 then 1 - t else t)
    rw [← hc] at h3
    apply rep_unique h2
    have h4 := full_bits xs
    rw [← hc] at h4
    classical
    have h5 : (if Full c (bitOf xs) 1 then (t + 1) % 2 else t) = if ∀ x ∈ xs, x = 1 then 1 - t else t := by
      by_cases h : ∀ x ∈ xs, x = 1
      · rw [if_pos h, if_pos (h4.2 h)]; omega
      · rw [if_neg h, if_neg (fun h' => h (h4.1 h'))]
    rw [h5]
    exact h3
  rw [hfold] at hscript
  -- the program
  obtain ⟨c0, h0⟩ : ∃ c0, Circuit.new (R := R) (.list (dims.map Int.ofNat)) (bits.map Int.ofNat) none = .ok c0 :=
    ⟨_, new_ok rfl hval none⟩
  have hc0 : c0 = freshCircuit (.list (dims.map Int.ofNat)) dims (bits.map Int.ofNat) none := by
    rw [new_ok rfl hval none] at h0
    exact (Except.ok.inj h0).symm
  have hbuild := build_eq hne hval h0 (gates r.finalLevels) hin []
  have hmeas : ∃ b, ((c0.calls ((gates r.finalLevels).map fun g => callOf (c + 1) (triple g))).call .measureAll).2 = .ok b := by
    obtain ⟨_, h2⟩ := reach_any (R := R) (q := .list (dims.map Int.ofNat)) (dims := dims) (by omega) (bits.map Int.ofNat) none
      ((gates r.finalLevels).map fun g => callOf (c + 1) (triple g))
    rcases h2 with ⟨_, layers, hu⟩ | ⟨h, _⟩
    · rw [hc0, hu.measure]
      exact ⟨_, rfl⟩
    · obtain ⟨g, _, hg⟩ := List.mem_map.1 h
      cases hg
  obtain ⟨bm, hmeas⟩ := hmeas
  unfold runCirc
  rw [hsim]
  simp only [Option.getD_some, bind, Except.bind]
  rw [← hdims, h0]
  have e3 : c0 = c0.calls [] := rfl
  simp only
  rw [e3, hbuild]
  simp only [List.nil_append]
  unfold script at hscript
  rw [h0] at hscript
  simp only [bind, Except.bind] at hscript
  have e4 : (c0.calls ((gates r.finalLevels).map fun g => callOf (R := R) (c + 1) (triple g))).call .measureAll =
      (c0.calls (((gates r.finalLevels).map fun g => callOf (R := R) (c + 1) (triple g)) ++ [.measureAll]), .ok bm) := by
    rw [← hmeas]
    simp [Circuit.calls]
  rw [e4]
  simp only
  rw [hscript]

/-- The default input is all ones, so the target is flipped. -/
theorem C34_default_input {N : Numerics R} (hN : N.Sized) {B : Backend R} (hB : B.Lawful) {n : Nat} (hn : 3 ≤ n) :
    runCirc N B n none = .ok (.str (label (List.replicate (n - 1) 1 ++ [0]))) := by
  have h := C34_multi_controlled_not hN hB (List.replicate (n - 1) 1) 1 (by simp; omega)
    (fun x hx => by rw [List.eq_of_mem_replicate hx]) (le_refl 1)
  rw [if_pos (fun x hx => List.eq_of_mem_replicate hx), List.length_replicate, show n - 1 + 1 = n by omega] at h
  rw [← h]
  unfold runCirc
  have e : (List.replicate (n - 1) 1 ++ [1]).map Int.ofNat = List.replicate n (1 : Int) := by
    rw [← List.replicate_succ', show n - 1 + 1 = n by omega, List.map_replicate]
    rfl
  rw [e]
  rfl

omit [Nontrivial R] in
/-- Fewer than three lines are not supported: a `ValueError` (0 or 1 lines) or an `IndexError` (2 lines). -/
theorem C34_too_few_lines (N : Numerics R) (B : Backend R) (input : Option (List Int)) :
    runCirc N B 0 input = .error .value ∧ runCirc N B 1 input = .error .value ∧
      runCirc N B 2 input = .error .index := ⟨rfl, rfl, rfl⟩

/-- Seven controls, all 1, and with one 0. -/
example {B : Backend ℤ} (hB : B.Lawful) :
    runCirc sampleN B 8 (some [1, 1, 1, 1, 1, 1, 1, 0]) = .ok (.str "|11111111>".toList) ∧
    runCirc sampleN B 8 (some [1, 1, 1, 0, 1, 1, 1, 0]) = .ok (.str "|11101110>".toList) :=
  ⟨C34_multi_controlled_not sampleN_sized hB [1, 1, 1, 1, 1, 1, 1] 0 (by decide) (by decide) (by decide),
    C34_multi_controlled_not sampleN_sized hB [1, 1, 1, 0, 1, 1, 1] 0 (by decide) (by decide) (by decide)⟩

/-! ### C35 -/

theorem range_snoc (j : Nat) : List.range' 1 (j + 1) = List.range' 1 j ++ [j + 1] := by
  rw [List.range'_concat]; simp [Nat.add_comm]

theorem tern_sum {c : Nat} {j : Nat} (hj : j ≤ c / 2) :
    ((List.range' 1 j).map (ternOf c)).sum + (if c / 4 < j ∧ j = c / 2 ∧ c % 2 = 0 then 2 else 0) =
      (if c / 4 ≤ j ∧ 1 ≤ c / 4 ∧ c % 4 < 2 then 4 else 0) + 4 * (j - c / 4) := by
  induction j with
  | zero => simp; intros; omega
  | succ j ih =>
    have := ih (by omega)
    rw [range_snoc, List.map_append, List.sum_append]
    simp only [List.map_cons, List.map_nil, List.sum_cons, List.sum_nil, ternOf]
    split_ifs at this ⊢ <;> omega

theorem quat_sum {c : Nat} {j : Nat} :
    ((List.range' 1 j).map (quatOf c)).sum = 4 * min j (if c % 4 < 2 then c / 4 - 1 else c / 4) := by
  induction j with
  | zero => simp
  | succ j ih =>
    rw [range_snoc, List.map_append, List.sum_append, ih]
    simp only [List.map_cons, List.map_nil, List.sum_cons, List.sum_nil, quatOf]
    split_ifs <;> omega

theorem card_qubits {c : Nat} {s : Sim} (hs : Inv c (c / 2) s) : s.qubits.card = c / 2 - c / 4 + 1 := by
  have e : s.qubits = insert (c + 1) ((Finset.Ioc (c / 4) (c / 2)).image fun k => 2 * k) := by
    ext x
    rw [inv_qubits hs, Finset.mem_insert, Finset.mem_image]
    simp only [Finset.mem_Ioc]
    constructor
    · rintro (h | h)
      · exact .inl h
      · exact .inr ⟨x / 2, by omega, by omega⟩
    · rintro (h | ⟨k, h1, h2⟩) <;> omega
  rw [e, Finset.card_insert_of_notMem, Finset.card_image_of_injective, Nat.card_Ioc]
  · intro a b h
    simp only at h
    omega
  · rw [Finset.mem_image]
    rintro ⟨k, h1, h2⟩
    rw [Finset.mem_Ioc] at h1
    omega

theorem card_qutrits {c : Nat} (hc : 2 ≤ c) {s : Sim} (hs : Inv c (c / 2) s) :
    s.qutrits.card + (if c % 2 = 0 then 1 else 0) = 2 * (c / 4) + 2 := by
  have e : s.qutrits = insert 1 (((Finset.Ioc 0 (c / 4)).image fun k => 2 * k) ∪
      ((Finset.Icc (max 1 ((c / 2 + 1) / 2)) ((c - 1) / 2)).image fun k => 2 * k + 1)) := by
    ext x
    rw [inv_qutrits hs hc, Finset.mem_insert, Finset.mem_union, Finset.mem_image, Finset.mem_image]
    simp only [Finset.mem_Ioc, Finset.mem_Icc]
    constructor
    · rintro (h | h | h)
      · exact .inl h
      · exact .inr (.inl ⟨x / 2, by omega, by omega⟩)
      · exact .inr (.inr ⟨x / 2, by omega, by omega⟩)
    · rintro (h | ⟨k, h1, h2⟩ | ⟨k, h1, h2⟩) <;> omega
  rw [e, Finset.card_insert_of_notMem, Finset.card_union_of_disjoint, Finset.card_image_of_injective,
    Finset.card_image_of_injective, Nat.card_Ioc, Nat.card_Icc]
  · split <;> omega
  · intro a b h
    simp only at h
    omega
  · intro a b h
    simp only at h
    omega
  · rw [Finset.disjoint_left]
    intro x h1 h2
    obtain ⟨a, _, ha⟩ := Finset.mem_image.1 h1
    obtain ⟨b, _, hb⟩ := Finset.mem_image.1 h2
    omega
  · rw [Finset.mem_union, Finset.mem_image, Finset.mem_image]
    rintro (⟨k, h1, h2⟩ | ⟨k, h1, h2⟩)
    · omega
    · rw [Finset.mem_Icc] at h1
      omega

theorem card_ququads {c : Nat} {s : Sim} (hs : Inv c (c / 2) s) : s.ququads.card = (c / 2 - 1) / 2 := by
  have e : s.ququads = (Finset.Icc 1 ((c / 2 - 1) / 2)).image fun k => 2 * k + 1 := by
    ext x
    rw [inv_ququads hs, Finset.mem_image]
    simp only [Finset.mem_Icc]
    constructor
    · rintro h
      exact ⟨x / 2, by omega, by omega⟩
    · rintro ⟨k, h1, h2⟩; omega
  rw [e, Finset.card_image_of_injective, Nat.card_Icc]
  · omega
  · intro a b h
    simp only at h
    omega

/-- **C35.** For `n ≥ 3` the counters and the numbers of qubits and ququads are those of
`mathematical_expectation(n)`; its number of qutrits is one too many exactly when `n - 1` is even. -/
theorem C35_formula {n : Nat} (hn : 3 ≤ n) : ∃ r, simulate n = .ok r ∧
    mathematicalExpectation n = ((r.tern : Int), (r.quat : Int), (r.qubits.card : Int),
      (r.qutrits.card : Int) + (if (n - 1) % 2 = 0 then 1 else 0), (r.ququads.card : Int)) := by
  obtain ⟨c, rfl⟩ : ∃ c, n = c + 1 := ⟨n - 1, by omega⟩
  have hc : 2 ≤ c := by omega
  obtain ⟨s, hs, h⟩ := simulate_eq hc
  refine ⟨_, h, ?_⟩
  have h1 := tern_sum (c := c) (j := c / 2) (le_refl _)
  have h2 := quat_sum (c := c) (j := c / 2)
  have h3 := card_qubits hs
  have h4 := card_qutrits hc hs
  have h5 := card_ququads hs
  rw [← hs.tern] at h1
  rw [← hs.quat] at h2
  unfold mathematicalExpectation
  simp only [Nat.add_sub_cancel, Nat.cast_add, Nat.cast_one, Int.add_sub_cancel, h3, h5]
  simp only [Prod.mk.injEq]
  refine ⟨?_, ?_, ?_, ?_, ?_⟩
  · split_ifs at h1 ⊢ <;> omega
  · split_ifs at h2 <;> omega
  · omega
  · split_ifs at h4 ⊢ <;> omega
  · omega

/-- **C35.** The three sets, mapped to lines, partition the lines `0, …, n - 1`, and the registers that
`RUN_CIRC` uses have the dimensions that go with them. -/
theorem C35_partition {n : Nat} (hn : 3 ≤ n) : ∃ r, simulate n = .ok r ∧
    (∀ x ∈ r.qubits ∪ r.qutrits ∪ r.ququads, ∃ i < n, position n x = some i) ∧
    ∀ i < n,
      (some i ∈ r.qubits.image (position n) ∧ some i ∉ r.qutrits.image (position n) ∧
        some i ∉ r.ququads.image (position n) ∧ (registers n r)[i]? = some 2) ∨
      (some i ∉ r.qubits.image (position n) ∧ some i ∈ r.qutrits.image (position n) ∧
        some i ∉ r.ququads.image (position n) ∧ (registers n r)[i]? = some 3) ∨
      (some i ∉ r.qubits.image (position n) ∧ some i ∉ r.qutrits.image (position n) ∧
        some i ∈ r.ququads.image (position n) ∧ (registers n r)[i]? = some 4) := by
  obtain ⟨c, rfl⟩ : ∃ c, n = c + 1 := ⟨n - 1, by omega⟩
  have hc : 2 ≤ c := by omega
  obtain ⟨s, hs, h⟩ := simulate_eq hc
  refine ⟨_, h, ?_, ?_⟩
  · intro x hx
    simp only [Finset.mem_union, inv_qubits hs, inv_qutrits hs hc, inv_ququads hs] at hx
    have h1 : 1 ≤ x := by omega
    have h2 : x ≤ c + 1 := by omega
    exact ⟨_, pos_lt h1 h2, position_eq h1 h2⟩
  · intro i hi
    obtain ⟨k, hk1, hk2, rfl⟩ : ∃ k, 1 ≤ k ∧ k ≤ c + 1 ∧ pos (c + 1) k = i := by
      by_cases e : i = c
      · exact ⟨c + 1, by omega, le_refl _, by rw [pos_self]; omega⟩
      · obtain ⟨k, a1, a2, a3⟩ := pos_surj (n := c + 1) (i := i) (by omega)
        exact ⟨k, a1, by omega, a3⟩
    unfold registers
    rw [List.getElem?_map, List.getElem?_range hi]
    simp only [Option.map_some]
    have hA : ∀ x ∈ s.qubits, 1 ≤ x ∧ x ≤ c + 1 := by
      intro x hx; rw [inv_qubits hs] at hx; omega
    have hB : ∀ x ∈ s.qutrits, 1 ≤ x ∧ x ≤ c + 1 := by
      intro x hx; rw [inv_qutrits hs hc] at hx; omega
    have hC : ∀ x ∈ s.ququads, 1 ≤ x ∧ x ≤ c + 1 := by
      intro x hx; rw [inv_ququads hs] at hx; omega
    simp only [mem_image_position hk1 hk2 hA, mem_image_position hk1 hk2 hB, mem_image_position hk1 hk2 hC]
    simp only [inv_qubits hs, inv_qutrits hs hc, inv_ququads hs, Option.some.injEq]
    split_ifs <;> omega

/-! ### The labels on the gates -/

theorem nodes_perm (c : Nat) (hc : 2 ≤ c) :
    ((List.range (Nat.log2 c)).flatMap (onLevel c)).Perm (List.range' 1 (c / 2)) := by
  rw [List.perm_ext_iff_of_nodup]
  · intro k
    rw [List.mem_flatMap, List.mem_range'_1]
    constructor
    · rintro ⟨i, _, h⟩
      rw [mem_onLevel] at h
      omega
    · intro h
      exact ⟨lev c k, List.mem_range.2 (lev_lt hc), mem_onLevel.2 ⟨by omega, by omega, rfl⟩⟩
  · rw [List.nodup_flatMap]
    refine ⟨fun i _ => nodup_onLevel c i, ?_⟩
    apply List.Pairwise.imp _ (List.nodup_range (n := Nat.log2 c))
    intro i j hij k h1 h2
    rw [mem_onLevel] at h1 h2
    omega
  · exact List.nodup_range'

/-- Counting gates over the levels is counting them over the nodes. -/
theorem count_levels {c : Nat} (hc : 2 ≤ c) (p : Gate → Bool) (G : Nat → List Gate) (is : List Nat)
    (his : is.Perm (List.range (Nat.log2 c))) :
    (is.flatMap fun i => (onLevel c i).flatMap G).countP p =
      ((List.range' 1 (c / 2)).map fun k => (G k).countP p).sum := by
  rw [← List.flatMap_assoc, List.countP_flatMap]
  apply List.Perm.sum_eq
  apply List.Perm.map
  exact (his.flatMap_right _).trans (nodes_perm c hc)

theorem counted_eq {c : Nat} (hc : 2 ≤ c) {s : Sim} (hs : Inv c (c / 2) s) (p : Gate → Bool) (g : Gate) :
    (gates (s.levels ++ [[(some g, none)]] ++ reflection s.levels)).countP p =
      ((List.range' 1 (c / 2)).map fun k => (pairGates (nodeGates c k)).countP p).sum + (if p g then 1 else 0) +
      ((List.range' 1 (c / 2)).map fun k => (pairGates (flipPair (nodeGates c k))).countP p).sum := by
  rw [final_gates hs, List.countP_append, List.countP_append, count_levels hc p _ _ (List.Perm.refl _),
    count_levels hc p _ _ (List.reverse_perm _)]
  simp [List.countP_cons]

theorem sum_quaternary (c : Nat) (F : Option Gate × Option Gate → Option Gate × Option Gate) (hF : F = id ∨ F = flipPair)
    (j : Nat) : ((List.range' 1 j).map fun k =>
      (pairGates (F (nodeGates c k))).countP fun g => g.tq == .quaternary).sum = 2 * min j (c / 4) := by
  induction j with
  | zero => simp
  | succ j ih =>
    rw [range_snoc, List.map_append, List.sum_append, ih]
    simp only [List.map_cons, List.map_nil, List.sum_cons, List.sum_nil]
    have : (pairGates (F (nodeGates c (j + 1)))).countP (fun g => g.tq == .quaternary) =
        if c / 4 < j + 1 then 0 else 2 := by
      unfold nodeGates
      by_cases h1 : c / 4 < j + 1
      · by_cases h2 : c < 2 * (j + 1) + 1 <;> rcases hF with rfl | rfl <;>
          simp [h1, h2, makeGates, pairGates, flipPair, Gate.flip]
      · rcases hF with rfl | rfl <;> simp [h1, makeGates, pairGates, flipPair, Gate.flip]
    rw [this]
    split <;> omega

theorem sum_all (c : Nat) (F : Option Gate × Option Gate → Option Gate × Option Gate) (hF : F = id ∨ F = flipPair)
    {j : Nat} (hj : j ≤ c / 2) : ((List.range' 1 j).map fun k =>
      (pairGates (F (nodeGates c k))).countP fun _ => true).sum + (if c / 4 < j ∧ j = c / 2 ∧ c % 2 = 0 then 1 else 0) =
      2 * j := by
  induction j with
  | zero => simp
  | succ j ih =>
    have ih := ih (by omega)
    rw [range_snoc, List.map_append, List.sum_append]
    simp only [List.map_cons, List.map_nil, List.sum_cons, List.sum_nil]
    have : (pairGates (F (nodeGates c (j + 1)))).countP (fun _ => true) =
        if c / 4 < j + 1 ∧ c < 2 * (j + 1) + 1 then 1 else 2 := by
      unfold nodeGates
      by_cases h1 : c / 4 < j + 1
      · by_cases h2 : c < 2 * (j + 1) + 1 <;> rcases hF with rfl | rfl <;>
          simp [h1, h2, makeGates, pairGates, flipPair, Gate.flip]
      · rcases hF with rfl | rfl <;> simp [h1, makeGates, pairGates, flipPair, Gate.flip]
    rw [this]
    split_ifs at ih ⊢ <;> omega

/-- **C35.** The counters add up to the number of gates actually made. The labels on the gates, which is what
main.py prints as "counted", agree with the counters except when the grandparent of the last node has no
right grandchild: then four gates counted as ternary are labelled quaternary. -/
theorem C35_labels {n : Nat} (hn : 3 ≤ n) : ∃ r, simulate n = .ok r ∧
    (gates r.finalLevels).length = r.tern + r.quat ∧
    counted .quaternary r = r.quat + (if 4 ≤ n - 1 ∧ (n - 1) % 4 < 2 then 4 else 0) ∧
    counted .ternary r + (if 4 ≤ n - 1 ∧ (n - 1) % 4 < 2 then 4 else 0) = r.tern := by
  obtain ⟨c, rfl⟩ : ∃ c, n = c + 1 := ⟨n - 1, by omega⟩
  have hc : 2 ≤ c := by omega
  obtain ⟨s, hs, h⟩ := simulate_eq hc
  refine ⟨_, h, ?_⟩
  have h1 := tern_sum (c := c) (j := c / 2) (le_refl _)
  have h2 := quat_sum (c := c) (j := c / 2)
  rw [← hs.tern] at h1
  rw [← hs.quat] at h2
  have q := counted_eq hc hs (fun g => g.tq == .quaternary) ⟨c + 1, 1, 1, 2, .dollar, .ternary⟩
  have a := counted_eq hc hs (fun _ => true) ⟨c + 1, 1, 1, 2, .dollar, .ternary⟩
  have q1 := sum_quaternary c id (.inl rfl) (c / 2)
  have q2 := sum_quaternary c flipPair (.inr rfl) (c / 2)
  have a1 := sum_all c id (.inl rfl) (j := c / 2) (le_refl _)
  have a2 := sum_all c flipPair (.inr rfl) (j := c / 2) (le_refl _)
  simp only [id] at q1 a1
  rw [q1, q2] at q
  have e : ∀ L : List Gate, L.countP (fun g => g.tq == .ternary) + L.countP (fun g => g.tq == .quaternary) =
      L.length := by
    intro L
    induction L with
    | nil => rfl
    | cons g L ih =>
      rw [List.countP_cons, List.countP_cons, List.length_cons]
      rcases g with ⟨_, _, _, _, _, _ | _⟩ <;> simp <;> omega
  have e1 := e (gates (s.levels ++ [[(some ⟨c + 1, 1, 1, 2, .dollar, .ternary⟩, none)]] ++ reflection s.levels))
  simp only [List.countP_true, true_and] at a a1 a2
  unfold counted
  simp only [Nat.add_sub_cancel]
  simp only [if_true, show ((Kind.ternary == Kind.quaternary) = true) = False by simp, if_false] at q a
  split_ifs at h1 h2 a1 a2 ⊢ <;> omega

/-- For 5 lines: 4 controls, an even number, and no right grandchild. -/
example : ∃ r, simulate 5 = .ok r ∧ r.tern = 7 ∧ r.quat = 0 ∧ r.qubits = {5, 4} ∧ r.qutrits = {1, 2, 3} ∧ r.ququads = ∅ ∧
    mathematicalExpectation 5 = (7, 0, 2, 4, 0) ∧ counted .quaternary r = 4 ∧ counted .ternary r = 3 :=
  ⟨_, rfl, rfl, rfl, by decide, by decide, rfl, rfl, rfl, rfl⟩

end QuDiet.Tree
