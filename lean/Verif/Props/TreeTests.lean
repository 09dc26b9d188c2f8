import Verif.TreeTests
import Verif.Props.Tree

/-! # C73: whatever is drawn, the generated tests of the decomposition pass -/

namespace QuDiet.Tree
open Spec

variable {R : Type} [CommRing R] [StarRing R] [DecidableEq R] [UnitaryCheck R] [Nontrivial R]

/-- The test case for drawn bits `xs ++ [t]` expects the target flipped exactly if all controls are 1. -/
theorem drawnCase_eq {xs : List Nat} {t : Nat} (hxs : ∀ x ∈ xs, x ≤ 1) (ht : t ≤ 1) :
    drawnCase (xs ++ [t]) =
      .ok ⟨xs.length + 1, xs ++ [t], label (xs ++ [if ∀ x ∈ xs, x = 1 then 1 - t else t])⟩ := by
  unfold drawnCase
  have e : 0 ∉ xs ↔ ∀ x ∈ xs, x = 1 := by
    constructor
    · intro h x hx
      have := hxs x hx
      have : x ≠ 0 := fun e => h (e ▸ hx)
      omega
    · intro h h0
      have := h 0 h0
      omega
  have hf : flip t = 1 - t := by unfold flip; split <;> omega
  rw [List.dropLast_concat]
  by_cases h : 0 ∉ xs
  · rw [if_pos h, if_pos (e.1 h)]
    simp [hf]
  · rw [if_neg h, if_neg (fun hh => h (e.2 hh))]
    simp

/-- The first test case for drawn bits passes. -/
theorem drawnCase_passes {N : Numerics R} (hN : N.Sized) {B : Backend R} (hB : B.Lawful) {bits : List Nat}
    (hlen : 3 ≤ bits.length) (hbits : ∀ b ∈ bits, b ≤ 1) : ∃ c, drawnCase bits = .ok c ∧ c.passes N B := by
  have hne : bits ≠ [] := by rintro rfl; simp at hlen
  obtain ⟨xs, t, rfl⟩ : ∃ xs t, bits = xs ++ [t] := ⟨_, _, (List.dropLast_append_getLast hne).symm⟩
  have hxs : ∀ x ∈ xs, x ≤ 1 := fun x hx => hbits x (by simp [hx])
  have ht : t ≤ 1 := hbits t (by simp)
  refine ⟨_, drawnCase_eq hxs ht, ?_⟩
  simp only [List.length_append, List.length_singleton] at hlen
  exact C34_multi_controlled_not hN hB xs t (by omega) hxs ht

theorem fixedCases_pass {N : Numerics R} (hN : N.Sized) {B : Backend R} (hB : B.Lawful) {n : Nat} (hn : 3 ≤ n) :
    ∀ c ∈ fixedCases n, c.passes N B := by
  have hone : ∀ x ∈ List.replicate (n - 1) 1, x = 1 := fun x hx => List.eq_of_mem_replicate hx
  have hle : ∀ x ∈ List.replicate (n - 1) 1, x ≤ 1 := fun x hx => (hone x hx).le
  have e1 : List.replicate (n - 1) 1 ++ [1] = List.replicate n 1 := by
    rw [← List.replicate_succ', show n - 1 + 1 = n by omega]
  intro c hc
  simp only [fixedCases, List.mem_cons, List.not_mem_nil, or_false] at hc
  rcases hc with rfl | rfl
  · have := C34_multi_controlled_not hN hB (List.replicate (n - 1) 1) 1 (by simp; omega) hle (le_refl 1)
    rw [if_pos hone, List.length_replicate, show n - 1 + 1 = n by omega, e1] at this
    exact this
  · have := C34_multi_controlled_not hN hB (List.replicate (n - 1) 1) 0 (by simp; omega) hle (by omega)
    rw [if_pos hone, List.length_replicate, show n - 1 + 1 = n by omega] at this
    rw [show 1 - 0 = 1 from rfl, e1] at this
    exact this

/-- **C73.** Whatever the random draws are, for any range of sizes from three lines on, the generator makes as many
test cases as its documentation says, and every one of them passes. -/
theorem C73_generated_tests_pass {N : Numerics R} (hN : N.Sized) {B : Backend R} (hB : B.Lawful)
    {draws : List (List Nat)} {low high : Nat} (hlow : 3 ≤ low) (hle : low ≤ high)
    (hlen : ∀ bits ∈ draws, low ≤ bits.length ∧ bits.length ≤ high) (hbits : ∀ bits ∈ draws, ∀ b ∈ bits, b = 0 ∨ b = 1) :
    ∃ cases, generateTestCases draws low high = .ok cases ∧
      cases.length = draws.length + 2 * (high - low + 1) ∧ ∀ c ∈ cases, c.passes N B := by
  obtain ⟨drawn, hd, hdl, hp⟩ : ∃ drawn, draws.mapM drawnCase = .ok drawn ∧ drawn.length = draws.length ∧
      ∀ c ∈ drawn, TestCase.passes N B c := by
    clear hle
    induction draws with
    | nil => exact ⟨[], rfl, rfl, by simp⟩
    | cons bits draws ih =>
      obtain ⟨cs, h1, h2, h3⟩ := ih (fun b hb => hlen b (by simp [hb])) (fun b hb => hbits b (by simp [hb]))
      have h4 := hlen bits (by simp)
      obtain ⟨c, hc, hcp⟩ := drawnCase_passes (N := N) (bits := bits) hN hB (by omega) (fun b hb => by
        have := hbits bits (by simp) b hb
        omega)
      refine ⟨c :: cs, ?_, by simp [h2], ?_⟩
      · rw [List.mapM_cons, hc, h1]
        rfl
      · intro d hd
        rcases List.mem_cons.1 hd with rfl | hd
        exacts [hcp, h3 d hd]
  refine ⟨drawn ++ (List.range' low (high + 1 - low)).flatMap fixedCases, ?_, ?_, ?_⟩
  · unfold generateTestCases
    rw [hd]
    rfl
  · have : ∀ l : List Nat, (l.flatMap fixedCases).length = 2 * l.length := by
      intro l
      induction l with
      | nil => rfl
      | cons a l ih => simp [fixedCases, ih]; omega
    rw [List.length_append, hdl, this, List.length_range']
    omega
  · intro c hc
    rcases List.mem_append.1 hc with hc | hc
    · exact hp c hc
    · obtain ⟨n, hn, hc⟩ := List.mem_flatMap.1 hc
      have := (List.mem_range'_1.1 hn).1
      exact fixedCases_pass hN hB (by omega) c hc

omit [Nontrivial R] in
/-- **C73.** From fewer than three lines on, some generated test does not pass. -/
theorem C73_small_sizes_fail (N : Numerics R) (B : Backend R) {draws : List (List Nat)} {low high : Nat}
    (hlow : low < 3) (hle : low ≤ high) {cases : List TestCase} (h : generateTestCases draws low high = .ok cases) :
    ∃ c ∈ cases, ¬ c.passes N B := by
  unfold generateTestCases at h
  cases hd : draws.mapM drawnCase with
  | error e => rw [hd] at h; cases h
  | ok drawn =>
    rw [hd] at h
    injection h with h
    subst h
    refine ⟨⟨low, List.replicate low 1, label (List.replicate (low - 1) 1 ++ [0])⟩, ?_, ?_⟩
    · refine List.mem_append.2 (.inr (List.mem_flatMap.2 ⟨low, List.mem_range'_1.2 ⟨le_refl _, by omega⟩, ?_⟩))
      simp [fixedCases]
    · unfold TestCase.passes
      have h3 : low = 0 ∨ low = 1 ∨ low = 2 := by omega
      obtain ⟨a, b, c⟩ := C34_too_few_lines N B (some ((List.replicate low 1).map Int.ofNat))
      rcases h3 with rfl | rfl | rfl
      · rw [a]; simp
      · rw [b]; simp
      · rw [c]; simp

/-- The call in the file, `generateTestCases(10, 4, 12)`, with two of the draws. -/
example {B : Backend ℤ} (hB : B.Lawful) :=
  C73_generated_tests_pass sampleN_sized hB (draws := [[1, 0, 1, 1], [1, 1, 1, 1, 1, 0]]) (low := 4) (high := 12)
    (by omega) (by omega) (by simp) (by simp)

example : (generateTestCases [[1, 0, 1, 1], [1, 1, 1, 1, 1, 0]] 4 4).toOption.map (·.map (·.exp.asString)) =
    some ["|1011>", "|111111>", "|1110>", "|1111>"] := by decide

example : ∃ c ∈ [(⟨2, [1, 1], "|10>".toList⟩ : TestCase), ⟨2, [1, 0], "|11>".toList⟩],
    ¬ c.passes sampleN (numpyBackend ℤ) :=
  C73_small_sizes_fail sampleN (numpyBackend ℤ) (draws := []) (low := 2) (high := 2) (by omega) (by omega) rfl

end QuDiet.Tree
