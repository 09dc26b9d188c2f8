import Verif.Props.Codec

/-! # C12: exactly when printed labels are ambiguous -/

namespace QuDiet
open Spec

/-! ### Decimal texts in a row -/

/-- The levels in decimal, one after the other. -/
def decimals (s : List Nat) : List Char := s.flatMap (Nat.toDigits 10)

theorem label_decimals (s : List Nat) : label s = '|' :: (decimals s ++ ['>']) := rfl

theorem decimals_cons (k : Nat) (s : List Nat) : decimals (k :: s) = Nat.toDigits 10 k ++ decimals s := by
  unfold decimals
  rw [List.flatMap_cons]

theorem decimals_append (s t : List Nat) : decimals (s ++ t) = decimals s ++ decimals t := by
  unfold decimals
  rw [List.flatMap_append]

theorem decimal_inj {a b : Nat} (h : Nat.toDigits 10 a = Nat.toDigits 10 b) : a = b := by
  have ha : Nat.ofDigitChars 10 (Nat.toDigits 10 a) 0 = a := Nat.ofDigitChars_ten_toDigits
  have hb : Nat.ofDigitChars 10 (Nat.toDigits 10 b) 0 = b := Nat.ofDigitChars_ten_toDigits
  rw [← ha, ← hb, h]

theorem no_leading_zero (b : Nat) (h : (Nat.toDigits 10 b).head? = some '0') : b = 0 := by
  induction b using Nat.strongRecOn with
  | ind b ih =>
    by_cases hb : b < 10
    · rw [toDigits_small hb] at h
      have h : Nat.digitChar b = '0' := by
        rw [List.head?_cons] at h
        exact Option.some.inj h
      exact digitChar_inj hb (by omega : 0 < 10) h
    · rw [Nat.toDigits_of_base_le (by omega) (by omega), List.head?_append_of_ne_nil _ Nat.toDigits_ne_nil] at h
      have := ih (b / 10) (by omega) h
      omega

theorem decimals_length (s : List Nat) : s.length ≤ (decimals s).length := by
  induction s with
  | nil => simp
  | cons k s ih =>
    have := Nat.length_toDigits_pos (b := 10) (n := k)
    rw [decimals_cons, List.length_append, List.length_cons]
    omega

theorem decimals_length_small {s : List Nat} (h : ∀ k ∈ s, k < 10) : (decimals s).length = s.length := by
  induction s with
  | nil => rfl
  | cons k s ih =>
    rw [decimals_cons, List.length_append, List.length_cons, toDigits_small (h k (by simp)),
      ih fun k hk => h k (by simp [hk])]
    simp
    omega

theorem fits_small {dims s : List Nat} (hd : ∀ d ∈ dims, d ≤ 10) (hs : Fits dims s) : ∀ k ∈ s, k < 10 := by
  intro k hk
  obtain ⟨i, hi, rfl⟩ := List.mem_iff_getElem.1 hk
  have h1 := hs.2 i hi (by rw [← hs.1]; exact hi)
  have h2 := hd _ (List.getElem_mem (by rw [← hs.1]; exact hi : i < dims.length))
  omega

/-- Two registers with more than ten levels, the first with more than eleven or not next to the second. -/
def Overlapping (dims : List Nat) : Prop :=
  ∃ i j, i < j ∧ j < dims.length ∧ 11 ≤ dims.getD i 0 ∧ 11 ≤ dims.getD j 0 ∧ (12 ≤ dims.getD i 0 ∨ i + 2 ≤ j)

theorem overlapping_cons {d : Nat} {dims : List Nat} (h : Overlapping dims) : Overlapping (d :: dims) := by
  obtain ⟨i, j, h1, h2, h3, h4, h5⟩ := h
  exact ⟨i + 1, j + 1, by omega, by simpa using h2, by simpa using h3, by simpa using h4, by
    rcases h5 with h5 | h5
    · left; simpa using h5
    · right; omega⟩

/-- Ten and one followed by other digits. -/
theorem ten_one {d : Nat} {dims s t : List Nat} (hs : Fits (d :: dims) s) (ht : Fits (d :: dims) t)
    (hd : ∀ e ∈ dims, e ≤ 10) : decimals (10 :: s) ≠ decimals (1 :: t) := by
  intro h
  obtain ⟨a, s, rfl, ha, hs'⟩ := fits_cons.1 hs
  clear hs
  rename' hs' => hs
  obtain ⟨b, t, rfl, hb, ht'⟩ := fits_cons.1 ht
  clear ht
  rename' ht' => ht
  rw [decimals_cons, decimals_cons 1, decimals_cons b] at h
  have e10 : Nat.toDigits 10 10 = ['1', '0'] := by decide
  have e1 : Nat.toDigits 10 1 = ['1'] := by decide
  rw [e10, e1] at h
  simp only [List.cons_append, List.nil_append, List.cons.injEq, true_and] at h
  by_cases hb0 : b = 0
  · subst hb0
    have e0 : Nat.toDigits 10 0 = ['0'] := by decide
    rw [e0] at h
    simp only [List.cons_append, List.nil_append, List.cons.injEq, true_and] at h
    have h1 := decimals_length (a :: s)
    rw [h, decimals_length_small (fits_small hd ht), List.length_cons, hs.1, ht.1] at h1
    omega
  · obtain ⟨c, l, hl⟩ := List.exists_cons_of_ne_nil (Nat.toDigits_ne_nil (b := 10) (n := b))
    have hc : c = '0' := by
      rw [hl] at h
      exact (List.cons.inj h).1.symm
    exact hb0 (no_leading_zero b (by rw [hl, hc]; rfl))

theorem decimals_inj {dims s t : List Nat} (hn : ¬ Overlapping dims) (hs : Fits dims s) (ht : Fits dims t)
    (h : decimals s = decimals t) : s = t := by
  induction dims generalizing s t with
  | nil => rw [fits_nil.1 hs, fits_nil.1 ht]
  | cons d dims ih =>
    obtain ⟨a, s, rfl, ha, hs'⟩ := fits_cons.1 hs
    clear hs
    rename' hs' => hs
    obtain ⟨b, t, rfl, hb, ht'⟩ := fits_cons.1 ht
    clear ht
    rename' ht' => ht
    have hn' : ¬ Overlapping dims := fun h => hn (overlapping_cons h)
    have same : a = b → a :: s = b :: t := by
      rintro rfl
      rw [decimals_cons, decimals_cons] at h
      rw [ih hn' hs ht (List.append_cancel_left h)]
    apply same
    by_cases h10 : d ≤ 10
    · rw [decimals_cons, decimals_cons, toDigits_small (by omega), toDigits_small (by omega)] at h
      exact digitChar_inj (by omega) (by omega) (List.cons.inj h).1
    · by_cases h12 : 12 ≤ d
      · have hd : ∀ e ∈ dims, e ≤ 10 := by
          intro e he
          obtain ⟨j, hj, rfl⟩ := List.mem_iff_getElem.1 he
          by_contra hc
          exact hn ⟨0, j + 1, by omega, by simpa using hj, by simp; omega, by
            simp [List.getD_eq_getElem?_getD, hj]; omega, .inl (by simpa using h12)⟩
        rw [decimals_cons, decimals_cons] at h
        have hlen := congrArg List.length h
        rw [List.length_append, List.length_append, decimals_length_small (fits_small hd hs),
          decimals_length_small (fits_small hd ht), hs.1, ht.1] at hlen
        exact decimal_inj (List.append_inj_left h (by omega))
      · have hd11 : d = 11 := by omega
        subst hd11
        cases dims with
        | nil =>
          rw [fits_nil.1 hs, fits_nil.1 ht] at h
          rw [decimals_cons, decimals_cons] at h
          exact decimal_inj (List.append_cancel_right h)
        | cons d dims =>
          have hd : ∀ e ∈ dims, e ≤ 10 := by
            intro e he
            obtain ⟨j, hj, rfl⟩ := List.mem_iff_getElem.1 he
            by_contra hc
            exact hn ⟨0, j + 2, by omega, by simpa using hj, by simp, by
              simp [List.getD_eq_getElem?_getD, hj]; omega, .inr (by omega)⟩
          have first : ∀ {a b : Nat} {s t : List Nat}, a < 10 → b < 10 → decimals (a :: s) = decimals (b :: t) → a = b := by
            intro a b s t ha hb h
            rw [decimals_cons, decimals_cons, toDigits_small ha, toDigits_small hb] at h
            exact digitChar_inj ha hb (List.cons.inj h).1
          have ten : ∀ {b : Nat} {s t : List Nat}, b < 10 → decimals (10 :: s) = decimals (b :: t) → b = 1 := by
            intro b s t hb h
            have e10 : Nat.toDigits 10 10 = ['1', '0'] := by decide
            have e1 : Nat.digitChar 1 = '1' := by decide
            rw [decimals_cons, decimals_cons, toDigits_small hb, e10, ← e1] at h
            exact (digitChar_inj (by omega) hb (List.cons.inj h).1).symm
          by_cases ha10 : a = 10
          · by_cases hb10 : b = 10
            · rw [ha10, hb10]
            · subst ha10
              have := ten (by omega) h
              subst this
              exact absurd h (ten_one hs ht hd)
          · by_cases hb10 : b = 10
            · subst hb10
              have := ten (by omega) h.symm
              subst this
              exact absurd h.symm (ten_one ht hs hd)
            · exact first (by omega) (by omega) h

/-! ### Ambiguous labels -/

theorem dec_zero : Nat.toDigits 10 0 = ['0'] := by decide
theorem dec_one : Nat.toDigits 10 1 = ['1'] := by decide
theorem dec_ten : Nat.toDigits 10 10 = ['1', '0'] := by decide
theorem dec_eleven : Nat.toDigits 10 11 = ['1', '1'] := by decide

theorem zero_levels {dims : List Nat} (h2 : ∀ d ∈ dims, 2 ≤ d) : Fits dims (dims.map fun _ => 0) := by
  refine ⟨by simp, fun i hi hi' => ?_⟩
  have := h2 _ (List.getElem_mem hi')
  simp
  omega

/-- A one can be moved from the front to the first register with more than ten levels. -/
theorem move_one {dims : List Nat} (h2 : ∀ d ∈ dims, 2 ≤ d) (h : ∃ d ∈ dims, 11 ≤ d) :
    ∃ u v, Fits dims u ∧ Fits dims v ∧ decimals v = '1' :: decimals u := by
  induction dims with
  | nil => simp at h
  | cons e dims ih =>
    have h2' : ∀ d ∈ dims, 2 ≤ d := fun d hd => h2 d (by simp [hd])
    have he := h2 e (by simp)
    by_cases h11 : 11 ≤ e
    · have hz := zero_levels h2'
      refine ⟨0 :: dims.map fun _ => 0, 10 :: dims.map fun _ => 0, fits_cons.2 ⟨_, _, rfl, by omega, hz⟩,
        fits_cons.2 ⟨_, _, rfl, by omega, hz⟩, ?_⟩
      rw [decimals_cons, decimals_cons, dec_zero, dec_ten]
      rfl
    · obtain ⟨u, v, hu, hv, h⟩ := ih h2' (by
        obtain ⟨d, hd, h⟩ := h
        rcases List.mem_cons.1 hd with rfl | hd
        · omega
        · exact ⟨d, hd, h⟩)
      refine ⟨1 :: u, 1 :: v, fits_cons.2 ⟨_, _, rfl, by omega, hu⟩, fits_cons.2 ⟨_, _, rfl, by omega, hv⟩, ?_⟩
      rw [decimals_cons, decimals_cons, dec_one, h]
      rfl

/-- A register with more than ten levels can show what two registers show. -/
theorem join_ten {dims : List Nat} (h2 : ∀ d ∈ dims, 2 ≤ d) (h : ∃ d ∈ dims, 11 ≤ d) {e : Nat} (he : 2 ≤ e) :
    ∃ u v, Fits (e :: dims) u ∧ Fits dims v ∧ decimals u = decimals v := by
  induction dims generalizing e with
  | nil => simp at h
  | cons e' dims ih =>
    have h2' : ∀ d ∈ dims, 2 ≤ d := fun d hd => h2 d (by simp [hd])
    have he' := h2 e' (by simp)
    by_cases h11 : 11 ≤ e'
    · have hz := zero_levels h2'
      refine ⟨1 :: 0 :: dims.map fun _ => 0, 10 :: dims.map fun _ => 0,
        fits_cons.2 ⟨_, _, rfl, by omega, fits_cons.2 ⟨_, _, rfl, by omega, hz⟩⟩,
        fits_cons.2 ⟨_, _, rfl, by omega, hz⟩, ?_⟩
      rw [decimals_cons, decimals_cons, decimals_cons, dec_zero, dec_one, dec_ten]
      rfl
    · obtain ⟨u, v, hu, hv, h⟩ := ih h2' (by
        obtain ⟨d, hd, h⟩ := h
        rcases List.mem_cons.1 hd with rfl | hd
        · omega
        · exact ⟨d, hd, h⟩) he'
      refine ⟨0 :: u, 0 :: v, fits_cons.2 ⟨_, _, rfl, by omega, hu⟩, fits_cons.2 ⟨_, _, rfl, by omega, hv⟩, ?_⟩
      rw [decimals_cons, decimals_cons, h]

theorem overlap_collides {dims : List Nat} (h2 : ∀ d ∈ dims, 2 ≤ d) (h : Overlapping dims) :
    ∃ s t, Fits dims s ∧ Fits dims t ∧ s ≠ t ∧ decimals s = decimals t := by
  induction dims with
  | nil =>
    obtain ⟨i, j, _, hj, _⟩ := h
    simp at hj
  | cons d dims ih =>
    have h2' : ∀ d ∈ dims, 2 ≤ d := fun d hd => h2 d (by simp [hd])
    have hd := h2 d (by simp)
    obtain ⟨i, j, hij, hj, hi11, hj11, hc⟩ := h
    obtain ⟨j, rfl⟩ : ∃ j', j = j' + 1 := ⟨j - 1, by omega⟩
    rw [List.length_cons, Nat.add_lt_add_iff_right] at hj
    rw [List.getD_cons_succ, List.getD_eq_getElem?_getD, List.getElem?_eq_getElem hj, Option.getD_some] at hj11
    cases i with
    | succ i =>
      obtain ⟨s, t, hs, ht, hne, he⟩ := ih h2' ⟨i, j, by omega, hj, by simpa using hi11, by
        simpa [List.getD_eq_getElem?_getD, hj] using hj11, by
        rcases hc with hc | hc
        · left; simpa using hc
        · right; omega⟩
      exact ⟨0 :: s, 0 :: t, fits_cons.2 ⟨_, _, rfl, by omega, hs⟩, fits_cons.2 ⟨_, _, rfl, by omega, ht⟩,
        by simpa using hne, by rw [decimals_cons, decimals_cons, he]⟩
    | zero =>
      rw [List.getD_cons_zero] at hi11 hc
      rcases hc with hc | hc
      · obtain ⟨u, v, hu, hv, h⟩ := move_one h2' ⟨_, List.getElem_mem hj, hj11⟩
        refine ⟨11 :: u, 1 :: v, fits_cons.2 ⟨_, _, rfl, by omega, hu⟩, fits_cons.2 ⟨_, _, rfl, by omega, hv⟩,
          by simp, ?_⟩
        rw [decimals_cons, decimals_cons, dec_one, dec_eleven, h]
        rfl
      · cases dims with
        | nil => simp at hj
        | cons e dims =>
          obtain ⟨j, rfl⟩ : ∃ j', j = j' + 1 := ⟨j - 1, by omega⟩
          rw [List.length_cons, Nat.add_lt_add_iff_right] at hj
          rw [List.getElem_cons_succ] at hj11
          have he := h2' e (by simp)
          obtain ⟨u, v, hu, hv, h⟩ := join_ten (fun d hd => h2' d (by simp [hd])) ⟨_, List.getElem_mem hj, hj11⟩ he
          refine ⟨10 :: u, 1 :: 0 :: v, fits_cons.2 ⟨_, _, rfl, by omega, hu⟩,
            fits_cons.2 ⟨_, _, rfl, by omega, fits_cons.2 ⟨_, _, rfl, by omega, hv⟩⟩, by simp, ?_⟩
          rw [decimals_cons, decimals_cons, decimals_cons, dec_one, dec_ten, dec_zero, h]
          rfl

/-! ### C12 -/

/-- **C12.** Exactly when labels are ambiguous: two different basis states have the same label if and only if
two registers have more than ten levels each, and the first of them has more than eleven or there is
a register between them. -/
theorem C12_ambiguous_iff {dims : List Nat} (h2 : ∀ d ∈ dims, 2 ≤ d) :
    (∃ s t, Fits dims s ∧ Fits dims t ∧ s ≠ t ∧ label s = label t) ↔
      ∃ i j, i < j ∧ j < dims.length ∧ 11 ≤ dims.getD i 0 ∧ 11 ≤ dims.getD j 0 ∧
        (12 ≤ dims.getD i 0 ∨ i + 2 ≤ j) := by
  constructor
  · rintro ⟨s, t, hs, ht, hne, h⟩
    by_contra hn
    rw [label_decimals, label_decimals] at h
    exact hne (decimals_inj hn hs ht (List.append_cancel_right (List.cons.inj h).2))
  · intro h
    obtain ⟨s, t, hs, ht, hne, he⟩ := overlap_collides h2 h
    exact ⟨s, t, hs, ht, hne, by rw [label_decimals, label_decimals, he]⟩

section
variable {R : Type} [CommRing R] [StarRing R] [DecidableEq R] [UnitaryCheck R] [Nontrivial R]

theorem label_inj {dims : List Nat} (hn : ¬ Overlapping dims) {s t : List Nat} (hs : Fits dims s) (ht : Fits dims t)
    (h : label s = label t) : s = t := by
  rw [label_decimals, label_decimals] at h
  exact decimals_inj hn hs ht (List.append_cancel_right (List.cons.inj h).2)

theorem mem_outcome {dims : List Nat} {ψ : State R} {s : List Nat} {a : R} :
    (s, a) ∈ outcome dims ψ ↔ Fits dims s ∧ a = ψ s ∧ a ≠ 0 := by
  unfold outcome
  simp only [List.mem_map, List.mem_filter, mem_states, decide_eq_true_eq, Prod.mk.injEq]
  constructor
  · rintro ⟨s', ⟨h1, h2⟩, rfl, rfl⟩
    exact ⟨h1, rfl, h2⟩
  · rintro ⟨h1, rfl, h2⟩
    exact ⟨s, ⟨h1, h2⟩, rfl, rfl⟩

theorem shown_inj {dims : List Nat} (hn : ¬ Overlapping dims) {ψ ψ' : State R} (h : shown dims ψ = shown dims ψ') :
    EqOn dims ψ ψ' := by
  have key : ∀ {ψ ψ' : State R}, shown dims ψ = shown dims ψ' → ∀ s, Fits dims s → ψ s ≠ 0 → ψ' s = ψ s := by
    intro ψ ψ' h s hs h0
    have hm : (.str (label s), ψ s) ∈ shown dims ψ :=
      List.mem_map.2 ⟨(s, ψ s), mem_outcome.2 ⟨hs, rfl, h0⟩, rfl⟩
    rw [h] at hm
    obtain ⟨⟨t, a⟩, ht, he⟩ := List.mem_map.1 hm
    obtain ⟨h1, h2, h3⟩ := mem_outcome.1 ht
    simp only [Prod.mk.injEq, Key.str.injEq] at he
    have := label_inj hn h1 hs he.1
    subst this
    rw [← h2, he.2]
  intro s hs
  by_cases h0 : ψ s = 0
  · by_cases h0' : ψ' s = 0
    · rw [h0, h0']
    · exact key h.symm s hs h0'
  · exact (key h s hs h0).symm

/-- **C12.** Unless labels are ambiguous, what is printed says everything: two circuits of valid calls on the same registers
that print the same result give the same result in every output format. -/
theorem C12_print_decides {N : Numerics R} (hN : N.Sized) {B : Backend R} (hB : B.Lawful) {dims : List Nat} (hne : dims ≠ [])
    (hn : ¬ ∃ i j, i < j ∧ j < dims.length ∧ 11 ≤ dims.getD i 0 ∧ 11 ≤ dims.getD j 0 ∧
      (12 ≤ dims.getD i 0 ∨ i + 2 ≤ j))
    {init init' : List Int} (h : ValidStart (dims.map Int.ofNat) init) (h' : ValidStart (dims.map Int.ofNat) init')
    {ks ks' : List (Call R)} (hks : ∀ k ∈ ks, k.Valid dims) (hks' : ∀ k ∈ ks', k.Valid dims)
    (heq : script N B (.list (dims.map Int.ofNat)) init none (ks ++ [.measureAll]) =
      script N B (.list (dims.map Int.ofNat)) init' none (ks' ++ [.measureAll])) (out : Option Output) :
    script N B (.list (dims.map Int.ofNat)) init out (ks ++ [.measureAll]) =
      script N B (.list (dims.map Int.ofNat)) init' out (ks' ++ [.measureAll]) := by
  rw [C01_run_sequential hN hB hne h hks, C01_run_sequential hN hB hne h' hks'] at heq
  exact script_congr hN hB hne h h' out hks hks' (shown_inj hn (Except.ok.inj heq)) [] []

/-- **C12.** If labels are ambiguous, they are so for circuits without gates: two lists of initial levels print the
same and are told apart by `OutputType.state`. -/
theorem C12_print_misleads {N : Numerics R} (hN : N.Sized) {B : Backend R} (hB : B.Lawful) {dims : List Nat}
    (h2 : ∀ d ∈ dims, 2 ≤ d)
    (hov : ∃ i j, i < j ∧ j < dims.length ∧ 11 ≤ dims.getD i 0 ∧ 11 ≤ dims.getD j 0 ∧
      (12 ≤ dims.getD i 0 ∨ i + 2 ≤ j)) :
    ∃ init init' : List Int, ValidStart (dims.map Int.ofNat) init ∧ ValidStart (dims.map Int.ofNat) init' ∧
      script N B (.list (dims.map Int.ofNat)) init none [.measureAll] =
        script N B (.list (dims.map Int.ofNat)) init' none [.measureAll] ∧
      script N B (.list (dims.map Int.ofNat)) init (some ⟨dims, .state, .amplitude⟩) [.measureAll] ≠
        script N B (.list (dims.map Int.ofNat)) init' (some ⟨dims, .state, .amplitude⟩) [.measureAll] := by
  have hne : dims ≠ [] := by
    rintro rfl
    obtain ⟨i, j, _, hj, _⟩ := hov
    simp at hj
  obtain ⟨s, t, hs, ht, hst, he⟩ := (C12_ambiguous_iff h2).2 hov
  have start : ∀ {s : List Nat}, Fits dims s → ValidStart (dims.map Int.ofNat) (s.map Int.ofNat) := by
    intro s hs
    refine ⟨?_, by simp [hs.1], ?_⟩
    · intro d hd
      obtain ⟨e, he, rfl⟩ := List.mem_map.1 hd
      have := h2 e he
      show (2 : Int) ≤ (e : Int)
      omega
    · intro i hi hi'
      rw [List.length_map] at hi hi'
      have := hs.2 i hi hi'
      simp only [List.getElem_map]
      show -((dims[i] : Nat) : Int) ≤ ((s[i] : Nat) : Int) ∧ ((s[i] : Nat) : Int) < ((dims[i] : Nat) : Int)
      omega
  have lev : ∀ {s : List Nat}, Fits dims s → startLevels dims (s.map Int.ofNat) = s := by
    intro s hs
    apply List.ext_getElem
    · simp [startLevels, hs.1]
    · intro i h1 h3
      have hi : i < dims.length := by rw [← hs.1]; exact h3
      have := hs.2 i h3 hi
      simp only [startLevels, List.getElem_map, List.getElem_range, List.getD_eq_getElem?_getD, List.getElem?_map,
        List.getElem?_eq_getElem h3, List.getElem?_eq_getElem hi, Option.map_some, Option.getD_some]
      show (((s[i] : Nat) : Int) % ((dims[i] : Nat) : Int)).toNat = s[i]
      rw [Int.emod_eq_of_lt (by omega) (by omega)]
      simp
  have run : ∀ {s : List Nat}, Fits dims s → ∀ out : Option Output, (∀ o ∈ out, o.base = dims) →
      script N B (.list (dims.map Int.ofNat)) (s.map Int.ofNat) out [.measureAll] =
        .ok [((format dims out).key s, (format dims out).val 1)] := by
    intro s hs out ho
    refine (script_valid hN hB hne (start hs) ho (ks := []) (by simp) []).trans ?_
    rw [stateAfter, List.foldl_nil, lev hs, listing, outcome_basis hs]
    rfl
  refine ⟨s.map Int.ofNat, t.map Int.ofNat, start hs, start ht, ?_, ?_⟩
  · rw [run hs none (by simp), run ht none (by simp)]
    show Except.ok [(Key.str (label s), (1 : R))] = Except.ok [(Key.str (label t), 1)]
    rw [he]
  · rw [run hs _ (by simp), run ht _ (by simp)]
    intro h
    have := (Except.ok.inj h)
    simp only [List.cons.injEq, Prod.mk.injEq, and_true] at this
    exact hst (by simpa [format, Output.key] using this)

end

/-- Registers of 12 and 11 levels are ambiguous, registers of 11 and 12 levels are not. -/
example : (∃ s t, Fits [12, 11] s ∧ Fits [12, 11] t ∧ s ≠ t ∧ label s = label t) ∧
    ¬ ∃ s t, Fits [11, 12] s ∧ Fits [11, 12] t ∧ s ≠ t ∧ label s = label t := by
  rw [C12_ambiguous_iff (by simp), C12_ambiguous_iff (by simp)]
  constructor
  · exact ⟨0, 1, by simp⟩
  · rintro ⟨i, j, h1, h2, _, _, h3⟩
    simp only [List.length_cons, List.length_nil] at h2
    have hi : i = 0 := by omega
    subst hi
    rcases h3 with h3 | h3
    · simp at h3
    · omega

/-- On registers of 11 and 12 levels the printed results of two circuits of `x` calls decide. -/
example {B : Backend ℤ} (hB : B.Lawful) (out : Option Output) :
    script sampleN B (.list [11, 12]) [] out ([.x 0 none 3, .x 1 none 4] ++ [.measureAll]) =
      script sampleN B (.list [11, 12]) [3, 4] out ([] ++ [.measureAll]) := by
  refine C12_print_decides sampleN_sized hB (dims := [11, 12]) (by simp) ?_ (validStart_of rfl) (validStart_of rfl)
    (by simp [Call.Valid, InRange, DimOK]) (by simp) ?_ out
  · rintro ⟨i, j, h1, h2, _, _, h3⟩
    simp only [List.length_cons, List.length_nil] at h2
    have hi : i = 0 := by omega
    subst hi
    rcases h3 with h3 | h3
    · simp at h3
    · omega
  · rw [C02_classical_single_outcome sampleN_sized hB (by simp) (validStart_of rfl)
      (by simp [Call.Valid, InRange, DimOK]) (by simp [Call.Classical]),
      C02_classical_single_outcome sampleN_sized hB (by simp) (validStart_of rfl) (by simp) (by simp)]
    rfl

end QuDiet
