import Verif.QasmFile

/-! Lemmas about line ends. -/

namespace QuDiet.Qasm

theorem universal_char {c : Char} (h : c ≠ '\r') (t : Text) : universal (c :: t) = c :: universal t := by
  rw [universal]
  all_goals (intros; simp_all)

theorem universal_cr {t : Text} (h : t.head? ≠ some '\n') : universal ('\r' :: t) = '\n' :: universal t := by
  cases t with
  | nil => rfl
  | cons c t =>
    rw [universal]
    rintro t' ht
    injection ht with h1 _
    subst h1
    exact h rfl

theorem universal_written {t f : Text} (h : Written t f) : universal f = t := by
  induction h with
  | nil => rfl
  | char hr hn h ih => rw [universal_char hr, ih]
  | lf h ih => rw [universal_char (by decide), ih]
  | crlf h ih => rw [universal, ih]
  | cr hf h ih => rw [universal_cr hf, ih]

/-- A text without carriage returns is read as it is. -/
theorem universal_eq {t : Text} (h : '\r' ∉ t) : universal t = t := by
  induction t with
  | nil => rfl
  | cons c t ih =>
    rw [universal_char (fun e => h (by simp [e])), ih fun hm => h (by simp [hm])]

theorem universal_append {a : Text} (h : '\r' ∉ a) (t : Text) : universal (a ++ t) = a ++ universal t := by
  induction a with
  | nil => rfl
  | cons c a ih =>
    rw [List.cons_append, universal_char (fun e => h (by simp [e])), ih fun hm => h (by simp [hm]), List.cons_append]

/-- What is read has no carriage returns. -/
theorem not_mem_universal (t : Text) : '\r' ∉ universal t := by
  fun_induction universal t <;> simp_all [eq_comm]

end QuDiet.Qasm
