import Verif.Lemmas.Picks
import Verif.Lemmas.Rounding
import Verif.Props.Construct
import Verif.Props.Numeric

/-! # C54: arithmetic with rounding does not harm circuits that permute levels -/

namespace QuDiet
open Spec

variable [UnitaryCheck ℂ] {B : Backend ℂ} {u : ℝ}

/-- Double precision: the real and the imaginary part are rounded to 53 significant bits after every operation. -/
noncomputable def doubleBackend : Backend ℂ :=
  let h := roundComplex_rounding 52
  roundBackend (roundComplex 52) h.zero h.one h.idem

theorem doubleBackend_rounds : doubleBackend.Rounds ((1 / 2) ^ 53) :=
  roundBackend_rounds (roundComplex_rounding 52)

/-- **C54.** When no `h`, `z` or custom gate is called, `run` gives with floating point arithmetic, of whatever
precision, exactly what it gives with exact arithmetic: the same dictionaries or the same exception. The arguments of
the calls are arbitrary, and so are the roots of unity and square roots that the libraries compute. -/
theorem C54_permutations_are_exact (hB : B.Rounds u) (N N' : Numerics ℂ) {q : RegsArg} (hq : q.dims ≠ [])
    (init : List Int) (out : Option Output) {ks : List (Call ℂ)} (hks : ∀ k ∈ ks, k.Digital) :
    script N' B q init out ks = script N (numpyBackend ℂ) q init out ks := by
  unfold script
  cases hc : Circuit.new (R := ℂ) q init out with
  | error e => rfl
  | ok c =>
    obtain ⟨h2, h3, h4⟩ := (C20_constructor_accepts q init out).1 ⟨c, hc⟩
    have hd : q.dims = (q.dims.map Int.toNat).map Int.ofNat := by
      rw [List.map_map]
      conv_lhs => rw [← List.map_id q.dims]
      apply List.map_congr_left
      intro d hd
      have := h2 d hd
      simp only [Function.comp, id, Int.ofNat_eq_natCast]
      omega
    have hv : ValidStart ((q.dims.map Int.toNat).map Int.ofNat) init := by
      rw [← hd]
      exact ⟨h2, h3, fun i hi hi' => h4 i hi' hi⟩
    rw [new_ok hd hv out] at hc
    cases hc
    have := rounds_run hB N N' (q := q) (dims := q.dims.map Int.toNat)
      (by rw [List.length_map]; exact List.length_pos_of_ne_nil hq) init out hks
    change (Circuit.run N' B _).2 = (Circuit.run N (numpyBackend ℂ) _).2
    unfold Circuit.run
    rw [this]

/-- A misplaced `toffoli`, a `cx` outside of the circuit and an `x` that raises are allowed. -/
example (N : Numerics ℂ) :
    script N doubleBackend (.list [3, 2, 4]) [2, -1] none
      [.x 0 none 1, .cx 1 7 1, .toffoli [0, 1] 0 1, .x 5 none 1, .toffoli [0, 1] 2 1, .measureAll] =
    script N (numpyBackend ℂ) (.list [3, 2, 4]) [2, -1] none
      [.x 0 none 1, .cx 1 7 1, .toffoli [0, 1] 0 1, .x 5 none 1, .toffoli [0, 1] 2 1, .measureAll] :=
  C54_permutations_are_exact doubleBackend_rounds N N (by simp [RegsArg.dims]) _ _ (by simp [Call.Digital])

theorem Call.Classical.digital {k : Call ℂ} (h : k.Classical) : k.Digital := by
  cases k <;> first | trivial | exact h.elim

/-- **C54.** The single outcome of a circuit of increments is found, with amplitude exactly 1, however inaccurate the
arithmetic is. -/
theorem C54_classical_single_outcome (hB : B.Rounds u) (N' : Numerics ℂ) {dims : List Nat} (hne : dims ≠ [])
    {init : List Int} (h : ValidStart (dims.map Int.ofNat) init) {ks : List (Call ℂ)}
    (hks : ∀ k ∈ ks, k.Valid dims) (hc : ∀ k ∈ ks, k.Classical) :
    script N' B (.list (dims.map Int.ofNat)) init none (ks ++ [.measureAll]) =
      .ok [(.str (label (ks.foldl (fun s k => classicalStep dims k s) (startLevels dims init))), 1)] := by
  rw [C54_permutations_are_exact hB standardN N' (by simpa [RegsArg.dims] using hne) init none (by
    intro k hk
    rcases List.mem_append.1 hk with hk | hk
    · exact (hc k hk).digital
    · rw [List.mem_singleton] at hk
      subst hk
      trivial)]
  exact C02_classical_single_outcome standardN_exact.sized numpy_lawful hne h hks hc

/-- The ripple of increments of the example for C02, in double precision. -/
example (N : Numerics ℂ) :
    script N doubleBackend (.list [3, 2, 4]) [2, 1, 3] none
      ([.toffoli [0, 1] 2 1, .cx 0 1 (-3), .x 0 none 1] ++ [.measureAll]) =
    .ok [(.str "|000>".toList, 1)] := by
  have h := C54_classical_single_outcome doubleBackend_rounds N (dims := [3, 2, 4]) (by simp) (init := [2, 1, 3])
    (validStart_of rfl) (ks := [.toffoli [0, 1] 2 1, .cx 0 1 (-3), .x 0 none 1])
    (by simp [Call.Valid, InRange, DimOK, spanOf]) (by simp [Call.Classical])
  exact h

end QuDiet
