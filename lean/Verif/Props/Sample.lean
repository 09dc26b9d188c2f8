import Verif.Lemmas.Any
import Verif.Lemmas.Norm

/-! # Integer sample numerics

Used by the examples that show that hypotheses can be met. Circuits without `h` and `z` have integer
amplitudes and do not look at `roots` and `invSqrt`. -/

namespace QuDiet

/-- Numerics that report the root 1 as often as the degree says. -/
def sampleN : Numerics ℤ where
  roots d := List.replicate d 1
  invSqrt _ := 1

theorem sampleN_sized : sampleN.Sized := fun d _ => by simp [sampleN]

/-- A check of `ValidStart` for concrete lists. -/
theorem validStart_of {ds init : List Int}
    (h : (ds.all (2 ≤ ·) && decide (init.length ≤ ds.length) &&
      (ds.zip init).all fun p => decide (-p.1 ≤ p.2 ∧ p.2 < p.1)) = true) : ValidStart ds init := by
  simp only [Bool.and_eq_true, List.all_eq_true, decide_eq_true_eq] at h
  refine ⟨h.1.1, h.1.2, ?_⟩
  intro i h1 h2
  exact h.2 (ds[i], init[i]) (List.mem_iff_getElem.2 ⟨i, by simp; omega, by simp⟩)

/-- A list of concrete calls is valid if each is. -/
theorem valid_nil {R : Type} [CommRing R] [StarRing R] [DecidableEq R] [UnitaryCheck R] {dims : List Nat} :
    ∀ k ∈ ([] : List (Call R)), k.Valid dims := by simp

end QuDiet
