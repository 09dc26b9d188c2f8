import Verif.Lemmas.QasmFile
import Verif.Props.Qasm
import Mathlib.Algebra.Ring.Int.Defs

/-! # C74: the line ends of QASM files do not matter -/

namespace QuDiet.Qasm

variable {R : Type} [CommRing R]

/-- **C74.** A file that holds a text with each line end written in any of the three ways is read as that text. -/
theorem C74_line_ends {t f : Text} (h : Written t f) : parseQasm (R := R) f = circuitFromQasm t := by
  rw [parseQasm, universal_written h]

/-- Files of Linux, Windows and old Mac systems are such files. -/
theorem C74_written {t : Text} (h : '\r' ∉ t) :
    Written t (withEnds (lit "\n") t) ∧ Written t (withEnds (lit "\r\n") t) ∧ Written t (withEnds (lit "\r") t) := by
  induction t with
  | nil => exact ⟨.nil, .nil, .nil⟩
  | cons c t ih =>
    obtain ⟨h1, h2, h3⟩ := ih fun hm => h (by simp [hm])
    have hc : c ≠ '\r' := fun e => h (by simp [e])
    unfold withEnds at *
    rw [List.flatMap_cons, List.flatMap_cons, List.flatMap_cons]
    by_cases hn : c = '\n'
    · subst hn
      refine ⟨.lf h1, .crlf h2, .cr ?_ h3⟩
      cases t with
      | nil => simp
      | cons d t =>
        rw [List.flatMap_cons]
        split
        · simp [lit]
        · rename_i hd
          simp [hd]
    · simp only [if_neg hn]
      exact ⟨.char hc hn h1, .char hc hn h2, .char hc hn h3⟩

/-- **C74.** So a program means the same in a file with any of the three line ends, throughout: the circuit of its
declarations and calls. -/
theorem C74_program {p : Program} (h : p.Ok) (hr : '\r' ∉ p.text) {e : Text}
    (he : e ∈ [lit "\n", lit "\r\n", lit "\r"]) :
    parseQasm (R := R) (withEnds e p.text) = build p.dims p.calls := by
  obtain ⟨h1, h2, h3⟩ := C74_written hr
  rw [← C27_program h]
  simp only [List.mem_cons, List.not_mem_nil, or_false] at he
  rcases he with rfl | rfl | rfl
  exacts [C74_line_ends h1, C74_line_ends h2, C74_line_ends h3]

/-- A text that is given to `circuit_from_qasm` directly is not treated so: with Windows line ends an `RX` line is
dropped without notice, because it no longer ends with `180`. -/
def crlfProgram : Program :=
  { first := [], more := [], word := .qudit, count := 1, blanks := 0, decls := [.qudit 0 200], instrs := [.rx 0],
    tail := [] }

/-- **C74.** Read from a file with line ends `\r\n` the program has depth 1; as a string with these line ends it has
depth 0: its gate is missing and there is no error. -/
theorem C74_crlf_in_strings :
    (parseQasm (R := ℤ) (withEnds (lit "\r\n") crlfProgram.text)).toOption.map (·.depth) = some 1 ∧
    (circuitFromQasm (R := ℤ) (withEnds (lit "\r\n") crlfProgram.text)).toOption.map (·.depth) = some 0 := by
  decide +kernel

/-- The sample program of C27 meets the hypotheses of `C74_program`. -/
example : parseQasm (R := ℤ) (withEnds (lit "\r\n") sample.text) = build sample.dims sample.calls :=
  C74_program sample_ok (by decide +kernel) (by simp)

end QuDiet.Qasm
