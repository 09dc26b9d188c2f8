import Verif.Props.Sequential

/-! # C11, C12, C14, C15: listings, labels and mixed-radix tables -/

namespace QuDiet
open Spec

/-! ### Lexicographic order -/

theorem value_lt_iff {ds s t : List Nat} (hs : Fits ds s) (ht : Fits ds t) :
    value ds s < value ds t ↔ s < t := by
  induction ds generalizing s t with
  | nil =>
    rw [fits_nil.1 hs, fits_nil.1 ht]
    simp [value]
  | cons d ds ih =>
    obtain ⟨a, s', rfl, ha, hs'⟩ := fits_cons.1 hs
    obtain ⟨b, t', rfl, hb, ht'⟩ := fits_cons.1 ht
    have h1 := value_lt hs'
    have h2 := value_lt ht'
    rw [List.cons_lt_cons_iff, ← ih hs' ht']
    simp only [value]
    rcases Nat.lt_trichotomy a b with h | h | h
    · have : (a + 1) * ds.prod ≤ b * ds.prod := Nat.mul_le_mul_right _ h
      rw [Nat.add_mul, Nat.one_mul] at this
      constructor
      · intro _; exact .inl h
      · intro _; omega
    · subst h; omega
    · have : (b + 1) * ds.prod ≤ a * ds.prod := Nat.mul_le_mul_right _ h
      rw [Nat.add_mul, Nat.one_mul] at this
      constructor
      · intro _; omega
      · intro _; omega

theorem states_sorted (ds : List Nat) : (states ds).Pairwise (· < ·) := by
  have h := List.pairwise_lt_range (n := ds.prod)
  rw [← map_value_states, List.pairwise_map] at h
  exact h.imp_of_mem fun {a b} ha hb hab => (value_lt_iff (mem_states.1 ha) (mem_states.1 hb)).1 hab

section
variable {R : Type} [CommRing R] [StarRing R] [DecidableEq R] [UnitaryCheck R] [Nontrivial R]

omit [StarRing R] [Nontrivial R] in
theorem outcome_spec (dims : List Nat) (ψ : State R) :
    ((outcome dims ψ).map Prod.fst).Pairwise (· < ·) ∧
      ∀ s a, (s, a) ∈ outcome dims ψ ↔ Fits dims s ∧ a = ψ s ∧ a ≠ 0 := by
  unfold outcome
  constructor
  · rw [List.map_map]
    have : (Prod.fst ∘ fun s => (s, ψ s)) = id := rfl
    rw [this, List.map_id]
    exact (states_sorted dims).filter _
  · intro s a
    simp only [List.mem_map, List.mem_filter, mem_states, decide_eq_true_eq, Prod.mk.injEq]
    constructor
    · rintro ⟨t, ⟨h1, h2⟩, rfl, rfl⟩
      exact ⟨h1, rfl, h2⟩
    · rintro ⟨h1, rfl, h2⟩
      exact ⟨s, ⟨h1, h2⟩, rfl, rfl⟩

/-! ### C11 -/

/-- **C11.** Calling an `Output` on any column vector `m` with one row per basis state lists, in
increasing lexicographic order of the levels, each basis state with a non-zero entry once, with that
entry, and nothing else. -/
theorem C11_output_listing (o : Output) (m : Mat R) (hr : m.rows = o.base.prod) (hc : m.cols = 1) :
    ∃ l : List (List Nat × R),
      o.call m = .ok (l.map fun e => (o.key e.1, o.val e.2)) ∧
      (l.map Prod.fst).Pairwise (· < ·) ∧
      ∀ s a, (s, a) ∈ l ↔ Fits o.base s ∧ a = m.e (value o.base s) 0 ∧ a ≠ 0 := by
  obtain ⟨h1, h2⟩ := outcome_spec o.base (fun s => m.e (value o.base s) 0)
  have hv : IsVec o.base m (fun s => m.e (value o.base s) 0) := ⟨hr, hc, fun _ _ => rfl⟩
  exact ⟨_, output_vec hv o rfl, h1, h2⟩

/-- **C11.** The same for `run()` on a valid circuit: the listed values are the amplitudes of the state
of the documented sequential semantics. -/
theorem C11_run_listing {N : Numerics R} (hN : N.Sized) {B : Backend R} (hB : B.Lawful)
    {dims : List Nat} (hne : dims ≠ []) {init : List Int} (h : ValidStart (dims.map Int.ofNat) init)
    {ks : List (Call R)} (hks : ∀ k ∈ ks, k.Valid dims) (ty : OutputType) :
    ∃ l : List (List Nat × R),
      script N B (.list (dims.map Int.ofNat)) init (some ⟨dims, ty, .amplitude⟩) (ks ++ [.measureAll])
        = .ok (l.map fun e => (match ty with | .state => .tup e.1 | .print => .str (label e.1), e.2)) ∧
      (l.map Prod.fst).Pairwise (· < ·) ∧
      ∀ s a, (s, a) ∈ l ↔ Fits dims s ∧ a = stateAfter N dims init ks s ∧ a ≠ 0 := by
  obtain ⟨h1, h2⟩ := outcome_spec dims (stateAfter N dims init ks)
  refine ⟨_, ?_, h1, h2⟩
  rw [script_valid hN hB hne h (by simp) hks []]
  cases ty <;> rfl

/-- The hypotheses of `C11_output_listing`: a vector of length 6 with two non-zero entries. -/
example := C11_output_listing (R := ℤ) ⟨[2, 3], .state, .amplitude⟩ ⟨6, 1, fun i _ => if i = 1 ∨ i = 4 then 1 else 0⟩
  rfl rfl

end

/-! ### C12 -/

theorem toDigits_small {k : Nat} (h : k < 10) : Nat.toDigits 10 k = [Nat.digitChar k] := by
  have : ∀ k : Fin 10, Nat.toDigits 10 k.1 = [Nat.digitChar k.1] := by decide
  exact this ⟨k, h⟩

theorem digitChar_inj {a b : Nat} (ha : a < 10) (hb : b < 10) (h : Nat.digitChar a = Nat.digitChar b) : a = b := by
  have : ∀ a b : Fin 10, Nat.digitChar a.1 = Nat.digitChar b.1 → a = b := by decide
  exact congrArg Fin.val (this ⟨a, ha⟩ ⟨b, hb⟩ h)

theorem label_small {s : List Nat} (h : ∀ k ∈ s, k < 10) :
    label s = '|' :: (s.map Nat.digitChar ++ ['>']) := by
  unfold label
  congr 2
  induction s with
  | nil => rfl
  | cons k s ih =>
    rw [List.flatMap_cons, toDigits_small (h k (by simp)), List.map_cons, ih fun k hk => h k (by simp [hk])]
    rfl

/-- **C12.** If every dimension is at most 10, the label of a basis state is its levels, one decimal
digit each, between `|` and `>`. -/
theorem C12_label_digits {dims s : List Nat} (hd : ∀ d ∈ dims, d ≤ 10) (hs : Fits dims s) :
    label s = '|' :: (s.map (fun k => "0123456789".toList.getD k ' ') ++ ['>']) := by
  have hk : ∀ k ∈ s, k < 10 := by
    intro k hk
    obtain ⟨i, hi, rfl⟩ := List.mem_iff_getElem.1 hk
    have h1 := hs.2 i hi (by rw [← hs.1]; exact hi)
    have h2 := hd _ (List.getElem_mem (by rw [← hs.1]; exact hi : i < dims.length))
    omega
  rw [label_small hk]
  congr 2
  apply List.map_congr_left
  intro k hk'
  have : ∀ k : Fin 10, Nat.digitChar k.1 = "0123456789".toList.getD k.1 ' ' := by decide
  exact this ⟨k, hk k hk'⟩

/-- **C12.** If every dimension is at most 10, different basis states have different labels. -/
theorem C12_labels_differ {dims s t : List Nat} (hd : ∀ d ∈ dims, d ≤ 10) (hs : Fits dims s)
    (ht : Fits dims t) (h : label s = label t) : s = t := by
  have small : ∀ s, Fits dims s → ∀ k ∈ s, k < 10 := by
    intro s hs k hk
    obtain ⟨i, hi, rfl⟩ := List.mem_iff_getElem.1 hk
    have h1 := hs.2 i hi (by rw [← hs.1]; exact hi)
    have h2 := hd _ (List.getElem_mem (by rw [← hs.1]; exact hi : i < dims.length))
    omega
  have hks := small s hs
  have hkt := small t ht
  rw [label_small hks, label_small hkt] at h
  have h' := List.append_cancel_right (List.cons.inj h).2
  clear h hs ht small
  induction s generalizing t with
  | nil => exact (List.map_eq_nil_iff.1 h'.symm).symm
  | cons a s ih =>
    cases t with
    | nil => simp at h'
    | cons b t =>
      rw [List.map_cons, List.map_cons, List.cons.injEq] at h'
      rw [digitChar_inj (hks a (by simp)) (hkt b (by simp)) h'.1,
        ih (fun k hk => hks k (by simp [hk])) (fun k hk => hkt k (by simp [hk])) h'.2]

/-- **C12.** On two registers of dimension at least 12 labels are ambiguous: two circuits that end in
different basis states print the same result, `|111>`; with `OutputType.state` they differ. -/
theorem C12_labels_collide {R : Type} [CommRing R] [StarRing R] [DecidableEq R] [UnitaryCheck R] [Nontrivial R]
    {N : Numerics R} (hN : N.Sized) {B : Backend R} (hB : B.Lawful) {a b : Nat} (ha : 12 ≤ a) (hb : 12 ≤ b) :
    let qregs := RegsArg.list [(a : Int), (b : Int)]
    script N B qregs [] none [.x 0 none 1, .x 1 none 11, .measureAll] = .ok [(.str "|111>".toList, 1)] ∧
    script N B qregs [] none [.x 0 none 11, .x 1 none 1, .measureAll] = .ok [(.str "|111>".toList, 1)] ∧
    script N B qregs [] (some ⟨[a, b], .state, .amplitude⟩) [.x 0 none 1, .x 1 none 11, .measureAll]
      = .ok [(.tup [1, 11], 1)] ∧
    script N B qregs [] (some ⟨[a, b], .state, .amplitude⟩) [.x 0 none 11, .x 1 none 1, .measureAll]
      = .ok [(.tup [11, 1], 1)] := by
  have hs : ValidStart ([a, b].map Int.ofNat) [] := by
    refine ⟨?_, by simp, by simp⟩
    intro d hd
    simp only [List.map_cons, List.map_nil, List.mem_cons, List.not_mem_nil, or_false] at hd
    rcases hd with rfl | rfl <;> simp <;> omega
  have main : ∀ (i j : Nat), i < 12 → j < 12 → ∀ out : Option Output, (∀ o ∈ out, o.base = [a, b]) →
      script N B (.list [(a : Int), (b : Int)]) [] out [.x 0 none i, .x 1 none j, .measureAll]
        = .ok [((format [a, b] out).key [i, j], (format [a, b] out).val 1)] := by
    intro i j hi hj out ho
    have hv : ∀ k ∈ [Call.x (R := R) 0 none i, .x 1 none j], k.Valid [a, b] := by
      simp only [List.mem_cons, List.not_mem_nil, or_false]
      rintro k (rfl | rfl) <;> simp [Call.Valid, InRange, DimOK] <;> omega
    have h1 := script_valid hN hB (dims := [a, b]) (by simp) hs ho hv []
    have h2 := classical_fold (N := N) (dims := [a, b]) _ hv (by simp [Call.Classical]) (startLevels_fits hs)
    have h3 : ([Call.x (R := R) 0 none i, .x 1 none j].foldl (fun s k => classicalStep [a, b] k s)
        (startLevels [a, b] [])) = [i, j] := by
      have e1 : (i : Int) % (a : Int) = i := Int.emod_eq_of_lt (by omega) (by omega)
      have e2 : (j : Int) % (b : Int) = j := Int.emod_eq_of_lt (by omega) (by omega)
      simp [classicalStep, startLevels, bump, List.range_succ, e1, e2]
    rw [h3] at h2
    refine h1.trans ?_
    rw [stateAfter, h2.2, listing, outcome_basis h2.1]
    rfl
  refine ⟨?_, ?_, ?_, ?_⟩
  · exact main 1 11 (by omega) (by omega) none (by simp)
  · exact main 11 1 (by omega) (by omega) none (by simp)
  · exact main 1 11 (by omega) (by omega) (some ⟨[a, b], .state, .amplitude⟩) (by simp)
  · exact main 11 1 (by omega) (by omega) (some ⟨[a, b], .state, .amplitude⟩) (by simp)

theorem fits_check {dims s : List Nat} (h : s.length = dims.length ∧ ((s.zip dims).all fun p => p.1 < p.2) = true) :
    Fits dims s := by
  refine ⟨h.1, fun i h1 h2 => ?_⟩
  have := List.all_eq_true.1 h.2 (s[i], dims[i]) (List.mem_iff_getElem.2 ⟨i, by simp; omega, by simp⟩)
  simpa using this

/-- Three registers of dimensions 11, 2, 11 already give an ambiguous label. -/
theorem C12_labels_collide_eleven : Fits [11, 2, 11] [10, 1, 0] ∧ Fits [11, 2, 11] [1, 0, 10] ∧
    label [10, 1, 0] = label [1, 0, 10] := by
  refine ⟨fits_check (by decide), fits_check (by decide), by decide⟩

/-- Levels 3 and 9 on registers of dimensions 4 and 10. -/
example : label [3, 9] = "|39>".toList := by decide

/-! ### C14 -/

/-- **C14.** `bin_to_Nbase` undoes `Nbase_to_bin` on every value below the product of the bases, and the
digits are below their bases. -/
theorem C14_decode_encode (base : List Nat) (v : Nat) (h : v < base.prod) :
    ∃ s, nbaseToBin v base = .ok s ∧ s.length = base.length ∧ (∀ i < s.length, s.getD i 0 < base.getD i 0) ∧
      binToNbase s (.list base) = .ok v := by
  obtain ⟨s, h1, h2, h3⟩ := nbaseToBin_ok base v h
  refine ⟨s, h1, h2.1, fun i hi => fits_getD_lt h2 i (by rw [← h2.1]; exact hi), ?_⟩
  rw [binToNbase_value base s h2.1, h3]

/-- **C14.** `Nbase_to_bin` undoes `bin_to_Nbase` on every digit list within the bases. -/
theorem C14_encode_decode (base s : List Nat) (hl : s.length = base.length)
    (hs : ∀ i < s.length, s.getD i 0 < base.getD i 0) :
    ∃ v, binToNbase s (.list base) = .ok v ∧ v < base.prod ∧ nbaseToBin v base = .ok s := by
  have hf : Fits base s := ⟨hl, fun i h1 h2 => by
    have := hs i h1
    simpa [List.getD_eq_getElem?_getD, h1, h2] using this⟩
  exact ⟨_, binToNbase_value base s hl, value_lt hf, nbaseToBin_value hf⟩

/-- **C14.** A value at or above the product raises `IndexError`. -/
theorem C14_too_large (base : List Nat) (hpos : ∀ b ∈ base, 0 < b) (v : Nat) (h : base.prod ≤ v) :
    nbaseToBin v base = .error .index := nbaseToBin_error base hpos v h

/-- **C14.** `bin_to_Nbase` raises `AssertionError` exactly when the lengths differ, and otherwise
returns a number. -/
theorem C14_length_mismatch (base s : List Nat) :
    (s.length ≠ base.length → binToNbase s (.list base) = .error .assertion) ∧
    (s.length = base.length → ∃ v, binToNbase s (.list base) = .ok v) :=
  ⟨binToNbase_error base s, fun h => ⟨_, binToNbase_value base s h⟩⟩

/-- **C14.** `bin_to_Nbase` is strictly monotone for the lexicographic order, hence so is its inverse
`Nbase_to_bin`. -/
theorem C14_monotone (base s t : List Nat) {v w : Nat} (hs : nbaseToBin v base = .ok s)
    (ht : nbaseToBin w base = .ok t) (hv : v < base.prod) (hw : w < base.prod) :
    (v < w ↔ s < t) ∧ binToNbase s (.list base) = .ok v ∧ binToNbase t (.list base) = .ok w := by
  obtain ⟨s', h1, h2, h3⟩ := nbaseToBin_ok base v hv
  obtain ⟨t', h4, h5, h6⟩ := nbaseToBin_ok base w hw
  rw [hs] at h1
  rw [ht] at h4
  cases h1
  cases h4
  rw [binToNbase_value base s h2.1, binToNbase_value base t h5.1]
  subst h3 h6
  exact ⟨value_lt_iff h2 h5, rfl, rfl⟩

/-- The codecs on a concrete value: 17 in the radices 2, 3, 4 is the digit list 1, 1, 1. -/
example : nbaseToBin 17 [2, 3, 4] = .ok [1, 1, 1] ∧ binToNbase [1, 1, 1] (.list [2, 3, 4]) = .ok 17 ∧
    (17 : Nat) < [2, 3, 4].prod := by
  refine ⟨?_, ?_, by decide⟩
  · simp [nbaseToBin, nbaseLoop]
  · simp [binToNbase, cumprodFrom]

/-! ### C15 -/

/-- A list of digit lists that has every digit list within `dims` once, in lexicographic order, each at
the position given by its mixed-radix value. -/
structure IsTable (dims : List Nat) (t : List (List Nat)) : Prop where
  size : t.length = dims.prod
  sorted : t.Pairwise (· < ·)
  mem : ∀ s, s ∈ t ↔ s.length = dims.length ∧ ∀ i < s.length, s.getD i 0 < dims.getD i 0
  row : ∀ i < t.length, nbaseToBin i dims = .ok (t.getD i [])

theorem fits_iff {dims s : List Nat} :
    Fits dims s ↔ s.length = dims.length ∧ ∀ i < s.length, s.getD i 0 < dims.getD i 0 := by
  constructor
  · intro h; exact ⟨h.1, fun i hi => fits_getD_lt h i (by rw [← h.1]; exact hi)⟩
  · rintro ⟨hl, hs⟩
    refine ⟨hl, fun i h1 h2 => ?_⟩
    have := hs i h1
    simpa [List.getD_eq_getElem?_getD, h1, h2] using this

theorem states_isTable (dims : List Nat) : IsTable dims (states dims) where
  size := length_states dims
  sorted := states_sorted dims
  mem s := by rw [mem_states, fits_iff]
  row i hi := by
    have h1 : (states dims).getD i [] ∈ states dims := by
      rw [List.getD_eq_getElem?_getD, List.getElem?_eq_getElem hi, Option.getD_some]
      exact List.getElem_mem hi
    have h2 := value_getElem hi
    have h3 := nbaseToBin_value (mem_states.1 h1)
    rw [List.getD_eq_getElem?_getD, List.getElem?_eq_getElem hi, Option.getD_some] at h3 ⊢
    rwa [h2] at h3

/-- **C15.** `ttg` and `generate_combinations` are both such tables (so they are equal). -/
theorem C15_tables (dims : List Nat) :
    IsTable dims (ttg dims) ∧ IsTable dims (generateCombinations dims) ∧
      ttg dims = generateCombinations dims := by
  rw [ttg_eq, generateCombinations_eq]
  exact ⟨states_isTable dims, states_isTable dims, rfl⟩

/-- **C15.** `get_index` finds a row of the table at its mixed-radix position, and returns `None` for any
other list of the same length. -/
theorem C15_get_index (dims s : List Nat) (hl : s.length = dims.length) :
    ((∀ i < s.length, s.getD i 0 < dims.getD i 0) →
      ∃ v, getIndex (ttg dims) s = some v ∧ binToNbase s (.list dims) = .ok v ∧ (ttg dims).getD v [] = s) ∧
    ((∃ i < s.length, dims.getD i 0 ≤ s.getD i 0) → getIndex (ttg dims) s = none) := by
  rw [ttg_eq]
  constructor
  · intro h
    have hf := fits_iff.2 ⟨hl, h⟩
    exact ⟨_, getIndex_states hf, binToNbase_value dims s hl, getD_value hf []⟩
  · rintro ⟨i, hi, h⟩
    apply getIndex_states_none
    intro hf
    have := (fits_iff.1 hf).2 i hi
    omega

/-- A concrete table. -/
example : ttg [2, 3] = [[0, 0], [0, 1], [0, 2], [1, 0], [1, 1], [1, 2]] := by decide

end QuDiet
