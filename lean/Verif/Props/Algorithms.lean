import Verif.Lemmas.Product
import Verif.Props.Sample
import Verif.Props.Hadamard
import Verif.Props.Sequential

/-! # C60–C62: whole algorithms, for every number of registers -/

namespace QuDiet
open Spec

/-! ### C60: the amplitude of an outcome is a sum over the intermediate outcomes -/

section
variable {R : Type} [CommRing R] [StarRing R] [DecidableEq R] [UnitaryCheck R] [Nontrivial R]

/-- **C60.** The amplitude that `run()` shows for `s` after the calls `ks1` and then `ks2` is the sum, over all level
lists `t`, of the amplitude that a circuit with only `ks1` shows for `t` times the amplitude that a circuit that starts
in `t`, with only `ks2`, shows for `s`. -/
theorem C60_paths {N : Numerics R} (hN : N.Sized) {B : Backend R} (hB : B.Lawful) {dims : List Nat} (hne : dims ≠ [])
    {init : List Int} (h : ValidStart (dims.map Int.ofNat) init) {ks1 ks2 : List (Call R)}
    (h1 : ∀ k ∈ ks1, k.Valid dims) (h2 : ∀ k ∈ ks2, k.Valid dims) (s : List Nat) :
    amplitude N B dims init (ks1 ++ ks2) s =
      ((states dims).map fun t => amplitude N B dims init ks1 t * amplitude N B dims (asInit t) ks2 s).sum := by
  have h12 : ∀ k ∈ ks1 ++ ks2, k.Valid dims := by
    intro k hk
    rcases List.mem_append.1 hk with hk | hk
    · exact h1 k hk
    · exact h2 k hk
  have hd := ge_two_of_valid h
  by_cases hs : Fits dims s
  · rw [amplitude_eq hN hB hne h h12 hs, stateAfter_eq, applyAll_append, applyAll_expand N h2 _ hs]
    apply map_congr_sum
    intro t ht
    have ht := mem_states.1 ht
    rw [amplitude_eq hN hB hne h h1 ht, amplitude_eq hN hB hne (validStart_asInit hd ht) h2 hs, stateAfter_eq,
      stateAfter_eq, startLevels_asInit ht]
  · rw [amplitude_unfit hN hB hne h h12 hs]
    symm
    apply List.sum_eq_zero
    intro a ha
    obtain ⟨t, ht, rfl⟩ := List.mem_map.1 ha
    rw [amplitude_unfit hN hB hne (validStart_asInit hd (mem_states.1 ht)) h2 hs, mul_zero]

/-- Two circuits with the same amplitudes from every starting level can be exchanged for each other inside any
circuit. -/
theorem C60_replace {N : Numerics R} (hN : N.Sized) {B : Backend R} (hB : B.Lawful) {dims : List Nat} (hne : dims ≠ [])
    {init : List Int} (h : ValidStart (dims.map Int.ofNat) init) {pre post as bs : List (Call R)}
    (hpre : ∀ k ∈ pre, k.Valid dims) (hpost : ∀ k ∈ post, k.Valid dims)
    (has : ∀ k ∈ as, k.Valid dims) (hbs : ∀ k ∈ bs, k.Valid dims)
    (hab : ∀ t, Fits dims t → ∀ s, amplitude N B dims (asInit t) as s = amplitude N B dims (asInit t) bs s)
    (s : List Nat) :
    amplitude N B dims init (pre ++ as ++ post) s = amplitude N B dims init (pre ++ bs ++ post) s := by
  have happ : ∀ {as bs : List (Call R)}, (∀ k ∈ as, k.Valid dims) → (∀ k ∈ bs, k.Valid dims) →
      ∀ k ∈ as ++ bs, k.Valid dims := by
    intro as bs h1 h2 k hk
    rcases List.mem_append.1 hk with hk | hk
    · exact h1 k hk
    · exact h2 k hk
  rw [C60_paths hN hB hne h (happ hpre has) hpost, C60_paths hN hB hne h (happ hpre hbs) hpost]
  apply map_congr_sum
  intro t _
  rw [C60_paths hN hB hne h hpre has, C60_paths hN hB hne h hpre hbs]
  congr 1
  apply map_congr_sum
  intro u hu
  rw [hab u (mem_states.1 hu)]

/-- The hypotheses are met by a qutrit and a qubit. -/
example : amplitude sampleN (numpyBackend ℤ) [3, 2] [1] ([.x 0 none 1] ++ [.cx 0 1 1]) [2, 1] =
    ((states [3, 2]).map fun t => amplitude sampleN (numpyBackend ℤ) [3, 2] [1] [.x 0 none 1] t *
      amplitude sampleN (numpyBackend ℤ) [3, 2] (asInit t) [.cx 0 1 1] [2, 1]).sum :=
  C60_paths sampleN_sized numpy_lawful (dims := [3, 2]) (by simp) (validStart_of rfl)
    (by simp [Call.Valid, InRange, DimOK]) (by simp [Call.Valid, InRange]) _

end

/-! ### C61: `h` on every register -/

section
variable [UnitaryCheck ℂ] {N : Numerics ℂ}

theorem prod_invSqrt (hN : N.Exact) {dims : List Nat} (hd : ∀ d ∈ dims, 2 ≤ d) :
    (dims.map N.invSqrt).prod = ((1 / Real.sqrt dims.prod : ℝ) : ℂ) := by
  induction dims with
  | nil => simp
  | cons d ds ih =>
    rw [List.map_cons, List.prod_cons, ih (fun d hd' => hd d (by simp [hd'])), hN.invSqrt d (by have := hd d (by simp); omega),
      List.prod_cons, Nat.cast_mul, Real.sqrt_mul (by positivity), ← Complex.ofReal_mul]
    congr 1
    rw [div_mul_div_comm, one_mul]

theorem map_range_getD {α : Type} (f : Nat → α) (l : List Nat) :
    ((List.range l.length).map fun i => f (l.getD i 0)) = l.map f := by
  apply List.ext_getElem
  · simp
  · intro i h1 h2
    have : i < l.length := by simpa using h1
    simp [this]

theorem startLevels_nil (dims : List Nat) : startLevels dims [] = List.replicate dims.length 0 := by
  apply List.ext_getElem
  · simp [startLevels]
  · intro i h1 h2
    simp [startLevels]

theorem fits_zero {dims : List Nat} (hd : ∀ d ∈ dims, 2 ≤ d) : Fits dims (List.replicate dims.length 0) := by
  refine ⟨by simp, ?_⟩
  intro i _ h
  have := hd dims[i] (List.getElem_mem h)
  simp
  omega

/-- **C61.** `h` on every register of a circuit that starts at level 0 gives every outcome the amplitude one over the
square root of the number of outcomes, for any registers. -/
theorem C61_uniform (hN : N.Exact) {B : Backend ℂ} (hB : B.Lawful) {dims : List Nat} (hne : dims ≠ [])
    (hd : ∀ d ∈ dims, 2 ≤ d) (s : List Nat) :
    amplitude N B dims [] (hOnFirst dims.length) s =
      if s ∈ states dims then ((1 / Real.sqrt dims.prod : ℝ) : ℂ) else 0 := by
  have h0 : ValidStart (dims.map Int.ofNat) [] := by
    refine ⟨?_, by simp, by simp⟩
    intro d hd'
    obtain ⟨e, he, rfl⟩ := List.mem_map.1 hd'
    have := hd e he
    simp
    omega
  have hv : ∀ k ∈ (hOnFirst dims.length : List (Call ℂ)), k.Valid dims := hOnFirst_valid (le_refl _)
  by_cases hs : Fits dims s
  · rw [if_pos (mem_states.2 hs), amplitude_eq hN.sized hB hne h0 hv hs, stateAfter_eq, startLevels_nil,
      applyAll_hOnFirst_all N (fits_zero hd) hs, ← prod_invSqrt hN hd, ← map_range_getD N.invSqrt dims]
    congr 1
    apply List.map_congr_left
    intro i _
    simp [hEntry, hadamard, List.getElem?_replicate]
    split <;> simp
  · rw [if_neg (fun h => hs (mem_states.1 h)), amplitude_unfit hN.sized hB hne h0 hv hs]

/-- The hypotheses are met by a qubit, a qutrit and a register of five levels. -/
example : amplitude standardN (numpyBackend ℂ) [2, 3, 5] [] (hOnFirst 3) [1, 2, 3] = ((1 / Real.sqrt 30 : ℝ) : ℂ) := by
  have := C61_uniform standardN_exact numpy_lawful (dims := [2, 3, 5]) (by simp) (by simp) [1, 2, 3]
  simpa [states] using this

/-! ### C62: phase kickback -/

/-- The inner product of two lists of levels. -/
def dot (x y : List Nat) : Nat := (List.zipWith (· * ·) x y).sum

/-- The calls `oracle` add `f x` to the last of `n + 1` qubits, modulo 2, when the others are at the levels `x`. -/
def AddsInto (N : Numerics ℂ) (B : Backend ℂ) (n : Nat) (oracle : List (Call ℂ)) (f : List Nat → Nat) : Prop :=
  ∀ x ∈ states (List.replicate n 2), ∀ b < 2, ∀ s,
    amplitude N B (List.replicate (n + 1) 2) (asInit (x ++ [b])) oracle s = if s = x ++ [(b + f x) % 2] then 1 else 0

theorem dot_append {x y : List Nat} (h : x.length = y.length) (a b : Nat) :
    dot (x ++ [a]) (y ++ [b]) = dot x y + a * b := by
  unfold dot
  rw [List.zipWith_append h]
  simp

theorem dot_zero (x : List Nat) (n : Nat) : dot x (List.replicate n 0) = 0 := by
  induction x generalizing n with
  | nil => simp [dot]
  | cons a x ih =>
    cases n with
    | zero => simp [dot]
    | succ n =>
      have := ih n
      simp only [dot] at this
      simp [dot, List.replicate_succ, this]

theorem zero_dot (x : List Nat) (n : Nat) : dot (List.replicate n 0) x = 0 := by
  have h : dot (List.replicate n 0) x = dot x (List.replicate n 0) := by
    unfold dot
    rw [List.zipWith_comm]
    simp only [mul_comm]
  rw [h, dot_zero]

theorem prod_signs (r : ℂ) {x y : List Nat} {m : Nat} (hx : x.length = m) (hy : y.length = m) :
    ((List.range m).map fun i => r * (-1) ^ (y.getD i 0 * x.getD i 0)).prod = r ^ m * (-1) ^ dot y x := by
  induction m generalizing x y with
  | zero => simp_all [dot]
  | succ m ih =>
    cases x with
    | nil => simp at hx
    | cons a x =>
      cases y with
      | nil => simp at hy
      | cons b y =>
        have := ih (x := x) (y := y) (by simpa using hx) (by simpa using hy)
        rw [List.range_succ_eq_map, List.map_cons, List.map_map, List.prod_cons]
        have e : ((fun i => r * (-1 : ℂ) ^ ((b :: y).getD i 0 * (a :: x).getD i 0)) ∘ Nat.succ) =
            fun i => r * (-1) ^ (y.getD i 0 * x.getD i 0) := by
          funext i
          simp
        rw [e, this]
        simp only [List.getD_cons_zero, dot, List.zipWith_cons_cons, List.sum_cons]
        ring

theorem invSqrt_two_sq (hN : N.Exact) : N.invSqrt 2 * N.invSqrt 2 = 1 / 2 := by
  have := hN.invSqrt_sq (d := 2) (by omega)
  rw [hN.invSqrt 2 (by omega), Complex.star_def, Complex.conj_ofReal, ← hN.invSqrt 2 (by omega)] at this
  rw [this]
  norm_num

/-- `h` on all of `m` qubits. -/
theorem hOnFirst_qubits (hN : N.Exact) {m : Nat} {x y : List Nat} (hx : Fits (List.replicate m 2) x)
    (hy : Fits (List.replicate m 2) y) :
    applyAll N (List.replicate m 2) (hOnFirst m) (basis x) y = N.invSqrt 2 ^ m * (-1) ^ dot y x := by
  have := applyAll_hOnFirst_all N hx hy
  rw [List.length_replicate] at this
  rw [this, ← prod_signs _ (by simpa using hx.1) (by simpa using hy.1)]
  congr 1
  apply List.map_congr_left
  intro i hi
  have hi := List.mem_range.1 hi
  have h2 : (List.replicate m 2).getD i 0 = 2 := by simp [hi]
  have h3 := fits_getD_lt hx i (by simpa using hi)
  have h4 := fits_getD_lt hy i (by simpa using hi)
  rw [h2] at h3 h4
  unfold hEntry
  rw [h2, hadamard_two hN h4 h3]

theorem fits_bits_append {n b : Nat} {x : List Nat} (hx : Fits (List.replicate n 2) x) (hb : b < 2) :
    Fits (List.replicate (n + 1) 2) (x ++ [b]) := by
  rw [List.replicate_succ', fits_append (by simpa using hx.1)]
  exact ⟨hx, by simp, by simpa [Fits] using hb⟩

omit [UnitaryCheck ℂ] in
theorem sum_bits {M : Type} [AddCommMonoid M] {n : Nat} (F : List Nat → M) : ((states (List.replicate (n + 1) 2)).map F).sum =
    ((states (List.replicate n 2)).map fun x => F (x ++ [0]) + F (x ++ [1])).sum := by
  rw [List.replicate_succ', sum_states_append]
  simp [states, List.range_succ]

theorem kick (b f : Nat) (hb : b < 2) : (-1 : ℂ) ^ (b * (f % 2)) - (-1) ^ (b * ((1 + f) % 2)) =
    if b = 1 then 2 * (-1) ^ f else 0 := by
  have hb' : b = 0 ∨ b = 1 := by omega
  rcases hb' with rfl | rfl
  · simp
  · rcases Nat.even_or_odd f with h | h
    · rw [Nat.even_iff.1 h, show (1 + f) % 2 = 1 by have := Nat.even_iff.1 h; omega, h.neg_one_pow]
      norm_num
    · rw [Nat.odd_iff.1 h, show (1 + f) % 2 = 0 by have := Nat.odd_iff.1 h; omega, h.neg_one_pow]
      norm_num

/-- The levels `0, …, 0, 1` of `n + 1` qubits. -/
def kickStart (n : Nat) : List Int := List.replicate n 0 ++ [1]

/-- **C62, phase kickback.** `n` qubits at level 0 and one at level 1; `h` on all of them, any calls that add `f x` to
the last one, and `h` on all of them again. The last qubit is still at level 1, and the amplitude of the levels `y` of
the others is `2⁻ⁿ Σₓ (-1)^(f x + x·y)`. -/
theorem C62_kickback (hN : N.Exact) {B : Backend ℂ} (hB : B.Lawful) {n : Nat} {oracle : List (Call ℂ)}
    {f : List Nat → Nat} (hv : ∀ k ∈ oracle, k.Valid (List.replicate (n + 1) 2)) (hf : AddsInto N B n oracle f)
    {y : List Nat} (hy : y ∈ states (List.replicate n 2)) {b : Nat} (hb : b < 2) :
    amplitude N B (List.replicate (n + 1) 2) (kickStart n) (hOnFirst (n + 1) ++ oracle ++ hOnFirst (n + 1)) (y ++ [b]) =
      if b = 1 then (1 / 2) ^ n * ((states (List.replicate n 2)).map fun x => (-1) ^ (f x + dot y x)).sum else 0 := by
  have hy := mem_states.1 hy
  have h2 : ∀ d ∈ List.replicate (n + 1) 2, 2 ≤ d := by
    intro d hd
    rw [List.eq_of_mem_replicate hd]
  have hz : Fits (List.replicate n 2) (List.replicate n 0) := by
    refine ⟨by simp, ?_⟩
    intro i _ _
    simp
  have hk : kickStart n = asInit (List.replicate n 0 ++ [1]) := by simp [kickStart, asInit]
  have hz1 := fits_bits_append hz (show 1 < 2 by omega)
  have hh : ∀ k ∈ (hOnFirst (n + 1) : List (Call ℂ)), k.Valid (List.replicate (n + 1) 2) :=
    hOnFirst_valid (by simp)
  have hov : ∀ k ∈ oracle ++ hOnFirst (n + 1), k.Valid (List.replicate (n + 1) 2) := by
    intro k hk
    rcases List.mem_append.1 hk with hk | hk
    · exact hv k hk
    · exact hh k hk
  have hyb := fits_bits_append hy hb
  have hne : List.replicate (n + 1) 2 ≠ [] := by simp
  rw [hk, List.append_assoc, amplitude_eq hN.sized hB hne (validStart_asInit h2 hz1) (by
      intro k hk
      rcases List.mem_append.1 hk with hk | hk
      · exact hh k hk
      · exact hov k hk) hyb, stateAfter_eq, startLevels_asInit hz1, applyAll_append, applyAll_expand N hov _ hyb,
    sum_bits]
  have main : ∀ x ∈ states (List.replicate n 2), ∀ c < 2,
      applyAll N (List.replicate (n + 1) 2) (hOnFirst (n + 1)) (basis (List.replicate n 0 ++ [1])) (x ++ [c]) *
        applyAll N (List.replicate (n + 1) 2) (oracle ++ hOnFirst (n + 1)) (basis (x ++ [c])) (y ++ [b]) =
      (1 / 2) ^ (n + 1) * ((-1) ^ c * (-1) ^ (dot y x + b * ((c + f x) % 2))) := by
    intro x hx c hc
    have hx' := mem_states.1 hx
    have hxc := fits_bits_append hx' hc
    have hg := fits_bits_append hx' (Nat.mod_lt (c + f x) (show 0 < 2 by omega))
    have ho : EqOn (List.replicate (n + 1) 2) (applyAll N (List.replicate (n + 1) 2) oracle (basis (x ++ [c])))
        (basis (x ++ [(c + f x) % 2])) := by
      intro s hs
      have := hf x hx c hc s
      rw [amplitude_eq hN.sized hB hne (validStart_asInit h2 hxc) hv hs, stateAfter_eq, startLevels_asInit hxc] at this
      rw [this]
      rfl
    rw [applyAll_append, applyAll_congr N hh ho _ hyb, hOnFirst_qubits hN hz1 hxc, hOnFirst_qubits hN hg hyb,
      dot_append (by rw [hx'.1]; simp), dot_append (by rw [hy.1, hx'.1]), dot_zero]
    have hr := invSqrt_two_sq hN
    rw [← hr, mul_pow]
    simp only [zero_add, mul_one]
    ring
  have : ((states (List.replicate n 2)).map fun x =>
      applyAll N (List.replicate (n + 1) 2) (hOnFirst (n + 1)) (basis (List.replicate n 0 ++ [1])) (x ++ [0]) *
        applyAll N (List.replicate (n + 1) 2) (oracle ++ hOnFirst (n + 1)) (basis (x ++ [0])) (y ++ [b]) +
      applyAll N (List.replicate (n + 1) 2) (hOnFirst (n + 1)) (basis (List.replicate n 0 ++ [1])) (x ++ [1]) *
        applyAll N (List.replicate (n + 1) 2) (oracle ++ hOnFirst (n + 1)) (basis (x ++ [1])) (y ++ [b])) =
      (states (List.replicate n 2)).map fun x => if b = 1 then (1 / 2) ^ n * (-1) ^ (f x + dot y x) else 0 := by
    apply List.map_congr_left
    intro x hx
    rw [main x hx 0 (by omega), main x hx 1 (by omega)]
    have := kick b (f x) hb
    rw [Nat.zero_add]
    calc _ = (1 / 2 : ℂ) ^ (n + 1) * (-1) ^ dot y x * ((-1) ^ (b * (f x % 2)) - (-1) ^ (b * ((1 + f x) % 2))) := by
          ring
      _ = _ := by
        rw [this]
        split
        · ring
        · ring
  rw [this]
  split
  · rw [List.sum_map_mul_left]
  · simp

/-- What `run()` returns, in any format, from the amplitudes. -/
theorem script_of_amplitude {N : Numerics ℂ} (hN : N.Sized) {B : Backend ℂ} (hB : B.Lawful)
    {dims : List Nat} (hne : dims ≠ []) {init : List Int} (h : ValidStart (dims.map Int.ofNat) init)
    {out : Option Output} (ho : ∀ o ∈ out, o.base = dims)
    {ks : List (Call ℂ)} (hks : ∀ k ∈ ks, k.Valid dims) {φ : State ℂ}
    (hφ : ∀ s, Fits dims s → amplitude N B dims init ks s = φ s) :
    script N B (.list (dims.map Int.ofNat)) init out (ks ++ [.measureAll]) =
      .ok (listing (format dims out) dims φ) := by
  rw [script_valid hN hB hne h ho hks []]
  unfold listing
  rw [outcome_congr (φ := φ) fun s hs => by rw [← hφ s hs, amplitude_eq hN hB hne h hks hs]]

theorem outcome_single {dims s0 : List Nat} (hs : Fits dims s0) {c : ℂ} (hc : c ≠ 0) :
    outcome dims (fun s => if s = s0 then c else 0) = [(s0, c)] := by
  unfold outcome
  have h1 : (states dims).filter (fun t => (if t = s0 then c else 0) ≠ 0) = (states dims).filter fun t => t == s0 := by
    apply List.filter_congr
    intro t _
    by_cases e : t = s0 <;> simp [e, hc]
  rw [h1, List.filter_beq, List.count_eq_one_of_mem (nodup_states dims) (mem_states.2 hs)]
  simp

theorem sum_signs {n : Nat} {a y : List Nat} (ha : Fits (List.replicate n 2) a) (hy : Fits (List.replicate n 2) y) :
    ((states (List.replicate n 2)).map fun x => (-1 : ℂ) ^ (dot a x + dot y x)).sum = if y = a then 2 ^ n else 0 := by
  induction n generalizing a y with
  | zero =>
    have h1 := List.eq_nil_of_length_eq_zero ha.1
    have h2 := List.eq_nil_of_length_eq_zero hy.1
    subst h1 h2
    simp [states, dot]
  | succ n ih =>
    cases a with
    | nil => have := ha.1; simp at this
    | cons a0 a =>
      cases y with
      | nil => have := hy.1; simp at this
      | cons y0 y =>
        rw [List.replicate_succ, fits_cons'] at ha hy
        have := ih ha.2 hy.2
        have e : ((states (List.replicate (n + 1) 2)).map fun x => (-1 : ℂ) ^ (dot (a0 :: a) x + dot (y0 :: y) x)).sum =
            (1 + (-1) ^ (a0 + y0)) * ((states (List.replicate n 2)).map fun x => (-1 : ℂ) ^ (dot a x + dot y x)).sum := by
          rw [List.replicate_succ, states, range_two]
          simp only [List.flatMap_cons, List.flatMap_nil, List.append_nil, List.map_append, List.sum_append, List.map_map]
          rw [add_mul, one_mul, ← List.sum_map_mul_left]
          congr 1
          · apply map_congr_sum
            intro x _
            simp [dot]
          · apply map_congr_sum
            intro x _
            simp only [Function.comp, dot, List.zipWith_cons_cons, List.sum_cons, mul_one]
            ring
        rw [e, this]
        have ha0 : a0 = 0 ∨ a0 = 1 := by have := ha.1; omega
        have hy0 : y0 = 0 ∨ y0 = 1 := by have := hy.1; omega
        rcases ha0 with rfl | rfl <;> rcases hy0 with rfl | rfl <;> simp <;> split <;> ring

theorem kick_valid {n : Nat} {oracle : List (Call ℂ)} (hv : ∀ k ∈ oracle, k.Valid (List.replicate (n + 1) 2)) :
    ∀ k ∈ hOnFirst (n + 1) ++ oracle ++ hOnFirst (n + 1), k.Valid (List.replicate (n + 1) 2) := by
  intro k hk
  have hh : ∀ k ∈ (hOnFirst (n + 1) : List (Call ℂ)), k.Valid (List.replicate (n + 1) 2) :=
    hOnFirst_valid (by simp)
  rcases List.mem_append.1 hk with hk | hk
  · rcases List.mem_append.1 hk with hk | hk
    · exact hh k hk
    · exact hv k hk
  · exact hh k hk

theorem kickStart_valid (n : Nat) : ValidStart ((List.replicate (n + 1) 2).map Int.ofNat) (kickStart n) := by
  have hk : kickStart n = asInit (List.replicate n 0 ++ [1]) := by simp [kickStart, asInit]
  rw [hk]
  apply validStart_asInit
  · intro d hd
    rw [List.eq_of_mem_replicate hd]
  · apply fits_bits_append _ (by omega)
    refine ⟨by simp, ?_⟩
    intro i _ _
    simp

/-- **C62, Bernstein–Vazirani.** If the calls add `a·x + c` to the last qubit, then `run()` lists exactly one outcome,
`a` followed by 1, with the amplitude `(-1)^c`: one run tells `a`. -/
theorem C62_bernstein_vazirani (hN : N.Exact) {B : Backend ℂ} (hB : B.Lawful) {n c : Nat} {a : List Nat}
    (ha : a ∈ states (List.replicate n 2)) {oracle : List (Call ℂ)}
    (hv : ∀ k ∈ oracle, k.Valid (List.replicate (n + 1) 2)) (hf : AddsInto N B n oracle fun x => dot a x + c)
    {out : Option Output} (ho : ∀ o ∈ out, o.base = List.replicate (n + 1) 2) :
    script N B (.list ((List.replicate (n + 1) 2).map Int.ofNat)) (kickStart n) out
        (hOnFirst (n + 1) ++ oracle ++ hOnFirst (n + 1) ++ [.measureAll]) =
      .ok [((format (List.replicate (n + 1) 2) out).key (a ++ [1]),
        (format (List.replicate (n + 1) 2) out).val ((-1) ^ c))] := by
  have ha' := mem_states.1 ha
  have hone : ((-1 : ℂ) ^ c) ≠ 0 := pow_ne_zero _ (by norm_num)
  rw [script_of_amplitude hN.sized hB (by simp) (kickStart_valid n) ho (kick_valid hv)
    (φ := fun s => if s = a ++ [1] then (-1) ^ c else 0)]
  · unfold listing
    rw [outcome_single (fits_bits_append ha' (by omega)) hone]
    rfl
  · intro s hs
    rw [List.replicate_succ'] at hs
    obtain ⟨y, b, rfl, hy, hb⟩ : ∃ y b, s = y ++ [b] ∧ Fits (List.replicate n 2) y ∧ b < 2 := by
      have hl : s.length = n + 1 := by rw [hs.1]; simp
      refine ⟨s.take n, s.getD n 0, ?_, ?_⟩
      · conv_lhs => rw [← List.take_append_drop n s]
        rw [List.drop_eq_getElem_cons (by omega)]
        simp [show n < s.length by omega, hl]
      · have e : s = s.take n ++ [s.getD n 0] := by
          conv_lhs => rw [← List.take_append_drop n s]
          rw [List.drop_eq_getElem_cons (by omega)]
          simp [show n < s.length by omega, hl]
        rw [e, fits_append (by simp [hl])] at hs
        exact ⟨hs.1, by simpa [Fits] using hs.2⟩
    rw [C62_kickback hN hB hv hf (mem_states.2 hy) hb]
    have e : ((states (List.replicate n 2)).map fun x => (-1 : ℂ) ^ (dot a x + c + dot y x)) =
        (states (List.replicate n 2)).map fun x => (-1) ^ c * (-1) ^ (dot a x + dot y x) := by
      apply List.map_congr_left
      intro x _
      ring
    rw [e, List.sum_map_mul_left, sum_signs ha' hy]
    by_cases hb1 : b = 1
    · subst hb1
      by_cases hya : y = a
      · subst hya
        rw [if_pos rfl, if_pos rfl, if_pos rfl, mul_comm, mul_assoc, ← mul_pow]
        norm_num
      · rw [if_pos rfl, if_neg hya, if_neg (fun h => hya (List.append_inj_left' h rfl))]
        simp
    · rw [if_neg hb1, if_neg (fun h => hb1 (by simpa using List.append_inj_right' h rfl))]

/-- **C62, Deutsch–Jozsa.** The amplitude of `0, …, 0, 1` is the number of `x` with even `f x` minus the number of
`x` with odd `f x`, over `2ⁿ`: it is 1 or -1 if `f` is constant, and 0 if `f` is balanced. -/
theorem C62_deutsch_jozsa (hN : N.Exact) {B : Backend ℂ} (hB : B.Lawful) {n : Nat} {oracle : List (Call ℂ)}
    {f : List Nat → Nat} (hv : ∀ k ∈ oracle, k.Valid (List.replicate (n + 1) 2)) (hf : AddsInto N B n oracle f) :
    amplitude N B (List.replicate (n + 1) 2) (kickStart n) (hOnFirst (n + 1) ++ oracle ++ hOnFirst (n + 1))
        (List.replicate n 0 ++ [1]) =
      ((((states (List.replicate n 2)).countP fun x => f x % 2 = 0) : ℂ) -
        ((states (List.replicate n 2)).countP fun x => f x % 2 = 1)) / 2 ^ n := by
  have hz : Fits (List.replicate n 2) (List.replicate n 0) := by
    refine ⟨by simp, ?_⟩
    intro i _ _
    simp
  rw [C62_kickback hN hB hv hf (mem_states.2 hz) (by omega), if_pos rfl]
  have : ∀ l : List (List Nat), (∀ x ∈ l, x.length = n) → (l.map fun x => (-1 : ℂ) ^ (f x + dot (List.replicate n 0) x)).sum =
      ((l.countP fun x => f x % 2 = 0) : ℂ) - (l.countP fun x => f x % 2 = 1) := by
    intro l
    induction l with
    | nil => simp
    | cons x l ih =>
      intro hl
      have hd : dot (List.replicate n 0) x = 0 := zero_dot x n
      rw [List.map_cons, List.sum_cons, ih (fun x hx => hl x (by simp [hx])), hd, List.countP_cons, List.countP_cons]
      rcases Nat.even_or_odd (f x) with h | h
      · have h2 := Nat.even_iff.1 h
        rw [Nat.add_zero, h.neg_one_pow]
        simp [h2]
        ring
      · have h2 := Nat.odd_iff.1 h
        rw [Nat.add_zero, h.neg_one_pow]
        simp [h2]
        ring
  rw [this _ fun x hx => by rw [(mem_states.1 hx).1]; simp]
  rw [div_pow, one_pow]
  ring

/-- A constant function: certainty. -/
theorem C62_constant (hN : N.Exact) {B : Backend ℂ} (hB : B.Lawful) {n c : Nat} {oracle : List (Call ℂ)}
    (hv : ∀ k ∈ oracle, k.Valid (List.replicate (n + 1) 2)) (hf : AddsInto N B n oracle fun _ => c)
    {out : Option Output} (ho : ∀ o ∈ out, o.base = List.replicate (n + 1) 2) :
    script N B (.list ((List.replicate (n + 1) 2).map Int.ofNat)) (kickStart n) out
        (hOnFirst (n + 1) ++ oracle ++ hOnFirst (n + 1) ++ [.measureAll]) =
      .ok [((format (List.replicate (n + 1) 2) out).key (List.replicate n 0 ++ [1]),
        (format (List.replicate (n + 1) 2) out).val ((-1) ^ c))] := by
  have hz : Fits (List.replicate n 2) (List.replicate n 0) := by
    refine ⟨by simp, ?_⟩
    intro i _ _
    simp
  apply C62_bernstein_vazirani hN hB (mem_states.2 hz) hv _ ho
  intro x hx b hb s
  have hd : dot (List.replicate n 0) x = 0 := zero_dot x n
  simp only [hd, Nat.zero_add]
  exact hf x hx b hb s

/-- A balanced function: `0, …, 0, 1` cannot be observed. -/
theorem C62_balanced (hN : N.Exact) {B : Backend ℂ} (hB : B.Lawful) {n : Nat} {oracle : List (Call ℂ)}
    {f : List Nat → Nat} (hv : ∀ k ∈ oracle, k.Valid (List.replicate (n + 1) 2)) (hf : AddsInto N B n oracle f)
    (hbal : ((states (List.replicate n 2)).countP fun x => f x % 2 = 0) =
      (states (List.replicate n 2)).countP fun x => f x % 2 = 1) :
    amplitude N B (List.replicate (n + 1) 2) (kickStart n) (hOnFirst (n + 1) ++ oracle ++ hOnFirst (n + 1))
        (List.replicate n 0 ++ [1]) = 0 := by
  rw [C62_deutsch_jozsa hN hB hv hf, hbal]
  simp

/-! #### An oracle for every `a` and `c` -/

/-- `cx` from each qubit `i` with `aᵢ = 1` to the last one, and `x` on the last one `c` times. -/
def maskOracle (n : Nat) (a : List Nat) (c : Nat) : List (Call ℂ) :=
  ((List.range n).filter fun i => a.getD i 0 = 1).map (fun i => .cx (Int.ofNat i) (Int.ofNat n) 1) ++
    List.replicate c (.x (Int.ofNat n) none 1)

theorem maskOracle_valid (n : Nat) (a : List Nat) (c : Nat) :
    ∀ k ∈ maskOracle n a c, k.Valid (List.replicate (n + 1) 2) := by
  intro k hk
  rcases List.mem_append.1 hk with hk | hk
  · obtain ⟨i, hi, rfl⟩ := List.mem_map.1 hk
    have := List.mem_range.1 (List.mem_filter.1 hi).1
    simp [Call.Valid, InRange]
    omega
  · rw [List.eq_of_mem_replicate hk]
    simp [Call.Valid, InRange, DimOK]

theorem maskOracle_classical (n : Nat) (a : List Nat) (c : Nat) : ∀ k ∈ maskOracle n a c, k.Classical := by
  intro k hk
  rcases List.mem_append.1 hk with hk | hk
  · obtain ⟨i, hi, rfl⟩ := List.mem_map.1 hk
    trivial
  · rw [List.eq_of_mem_replicate hk]
    trivial

theorem dot_take_succ {x y : List Nat} {m : Nat} (hx : m < x.length) (hy : m < y.length) :
    dot (x.take (m + 1)) (y.take (m + 1)) = dot (x.take m) (y.take m) + x.getD m 0 * y.getD m 0 := by
  rw [List.take_add_one, List.take_add_one, List.getElem?_eq_getElem hx, List.getElem?_eq_getElem hy]
  simp only [Option.toList_some]
  rw [dot_append (by simp; omega)]
  simp [hx, hy]

theorem bump_last {n b : Nat} {x : List Nat} (hx : x.length = n) :
    bump (List.replicate (n + 1) 2) n 1 (x ++ [b]) = x ++ [(b + 1) % 2] := by
  unfold bump
  have e1 : (x ++ [b]).getD n 0 = b := by simp [← hx]
  have e2 : (List.replicate (n + 1) 2).getD n 0 = 2 := by simp
  rw [e1, e2, ← hx, List.set_append_right _ _ (le_refl _)]
  simp only [Nat.sub_self, List.set_cons_zero]
  congr 2

theorem mask_fold {n m b : Nat} {a x : List Nat} (ha : Fits (List.replicate n 2) a)
    (hx : Fits (List.replicate n 2) x) (hm : m ≤ n) : (((List.range m).filter fun i => a.getD i 0 = 1).map
      fun i => (Call.cx (Int.ofNat i) (Int.ofNat n) 1 : Call ℂ)).foldl
        (fun s k => classicalStep (List.replicate (n + 1) 2) k s) (x ++ [b % 2]) = x ++ [(b + dot (a.take m) (x.take m)) % 2] := by
  induction m with
  | zero => simp [dot]
  | succ m ih =>
    have hxl : x.length = n := by simpa using hx.1
    have hal : a.length = n := by simpa using ha.1
    have hxm := fits_getD_lt hx m (by simp; omega)
    rw [show (List.replicate n 2).getD m 0 = 2 by simp [show m < n by omega]] at hxm
    rw [List.range_succ, List.filter_append, List.map_append, List.foldl_append, ih (by omega),
      dot_take_succ (by omega) (by omega)]
    by_cases ham : a.getD m 0 = 1
    · rw [List.filter_cons_of_pos (by simpa using ham), ham]
      simp only [List.filter_nil, List.map_cons, List.map_nil, List.foldl_cons, List.foldl_nil, classicalStep,
        Int.ofNat_eq_natCast, Int.toNat_natCast]
      have e1 : ∀ v, (x ++ [v]).getD m 0 = x.getD m 0 := by
        intro v
        simp [List.getElem?_append_left (show m < x.length by omega)]
      have e2 : (List.replicate (n + 1) 2).getD m 0 = 2 := by
        rw [List.getD_eq_getElem?_getD, List.getElem?_replicate, if_pos (by omega)]
        rfl
      unfold controlled
      simp only [List.mem_singleton, forall_eq, atTop, e1, e2]
      have hx01 : x.getD m 0 = 0 ∨ x.getD m 0 = 1 := by omega
      rcases hx01 with h | h
      · rw [h, if_neg (by omega)]
        simp
      · rw [h, if_pos (by omega), bump_last hxl]
        congr 2
        omega
    · rw [List.filter_cons_of_neg (by simpa using ham)]
      simp only [List.filter_nil, List.map_nil, List.foldl_nil]
      have : a.getD m 0 = 0 := by
        have h := fits_getD_lt ha m (by simp; omega)
        rw [show (List.replicate n 2).getD m 0 = 2 by simp [show m < n by omega]] at h
        omega
      rw [this]
      simp

theorem flips_fold {n c b : Nat} {x : List Nat} (hx : x.length = n) :
    (List.replicate c (Call.x (Int.ofNat n) none 1 : Call ℂ)).foldl
      (fun s k => classicalStep (List.replicate (n + 1) 2) k s) (x ++ [b % 2]) = x ++ [(b + c) % 2] := by
  induction c generalizing b with
  | zero => simp
  | succ c ih =>
    rw [List.replicate_succ (n := c), List.foldl_cons]
    have e : classicalStep (List.replicate (n + 1) 2) (Call.x (Int.ofNat n) none 1 : Call ℂ) (x ++ [b % 2]) =
        x ++ [(b + 1) % 2] := by
      simp only [classicalStep, Int.ofNat_eq_natCast, Int.toNat_natCast]
      rw [bump_last hx, Nat.mod_add_mod]
    rw [e, ih]
    congr 2
    omega

/-- Any circuit of `x`, `cx` and `toffoli` calls that computes `f` will do. -/
theorem classical_addsInto (hN : N.Sized) {B : Backend ℂ} (hB : B.Lawful) {n : Nat} {oracle : List (Call ℂ)}
    {f : List Nat → Nat} (hv : ∀ k ∈ oracle, k.Valid (List.replicate (n + 1) 2)) (hc : ∀ k ∈ oracle, k.Classical)
    (hf : ∀ x ∈ states (List.replicate n 2), ∀ b < 2,
      oracle.foldl (fun s k => classicalStep (List.replicate (n + 1) 2) k s) (x ++ [b]) = x ++ [(b + f x) % 2]) :
    AddsInto N B n oracle f := by
  intro x hx b hb s
  have hx' := mem_states.1 hx
  have h2 : ∀ d ∈ List.replicate (n + 1) 2, 2 ≤ d := by
    intro d hd
    rw [List.eq_of_mem_replicate hd]
  have hxb := fits_bits_append hx' hb
  have hst := validStart_asInit h2 hxb
  by_cases hs : Fits (List.replicate (n + 1) 2) s
  · rw [amplitude_eq hN hB (by simp) hst hv hs]
    unfold stateAfter
    rw [startLevels_asInit hxb, (classical_fold (N := N) _ hv hc hxb).2, hf x hx b hb]
    rfl
  · rw [amplitude_unfit hN hB (by simp) hst hv hs, if_neg]
    rintro rfl
    exact hs (fits_bits_append hx' (Nat.mod_lt _ (by omega)))

/-- The hypotheses of C62 are met, for every number of qubits, every `a` and every `c`. -/
theorem maskOracle_adds (hN : N.Sized) {B : Backend ℂ} (hB : B.Lawful) {n c : Nat} {a : List Nat}
    (ha : a ∈ states (List.replicate n 2)) : AddsInto N B n (maskOracle n a c) fun x => dot a x + c := by
  apply classical_addsInto hN hB (maskOracle_valid n a c) (maskOracle_classical n a c)
  intro x hx b hb
  have ha' := mem_states.1 ha
  have hx' := mem_states.1 hx
  have hal : a.length = n := by simpa using ha'.1
  have hxl : x.length = n := by simpa using hx'.1
  have := mask_fold (m := n) (b := b) ha' hx' (le_refl _)
  rw [List.take_of_length_le (by omega), List.take_of_length_le (by omega), Nat.mod_eq_of_lt hb] at this
  rw [maskOracle, List.foldl_append, this, flips_fold hxl]
  congr 2
  omega

/-- One run of the concrete circuit reveals the mask. -/
theorem C62_bernstein_vazirani_mask (hN : N.Exact) {B : Backend ℂ} (hB : B.Lawful) {n c : Nat} {a : List Nat}
    (ha : a ∈ states (List.replicate n 2)) :
    script N B (.list ((List.replicate (n + 1) 2).map Int.ofNat)) (kickStart n) none
        (hOnFirst (n + 1) ++ maskOracle n a c ++ hOnFirst (n + 1) ++ [.measureAll]) =
      .ok [(.str (label (a ++ [1])), (-1) ^ c)] :=
  C62_bernstein_vazirani hN hB ha (maskOracle_valid n a c) (maskOracle_adds hN.sized hB ha) (by simp)

example : script standardN (numpyBackend ℂ) (.list [2, 2, 2, 2]) [0, 0, 0, 1] none
    [.h 0 none, .h 1 none, .h 2 none, .h 3 none, .cx 0 3 1, .cx 2 3 1, .x 3 none 1,
      .h 0 none, .h 1 none, .h 2 none, .h 3 none, .measureAll] = .ok [(.str "|1011>".toList, -1)] := by
  have := C62_bernstein_vazirani_mask standardN_exact (numpy_lawful (R := ℂ)) (n := 3) (c := 1) (a := [1, 0, 1])
    (by simp [states, List.replicate_succ, List.range_succ])
  rw [pow_one] at this
  exact this

/-- `and` of two qubits is neither constant nor balanced: the amplitude of `0, 0, 1` is one half. -/
example : amplitude standardN (numpyBackend ℂ) [2, 2, 2] [0, 0, 1]
    (hOnFirst 3 ++ [.toffoli [0, 1] 2 1] ++ hOnFirst 3) [0, 0, 1] = 1 / 2 := by
  have h : AddsInto standardN (numpyBackend ℂ) 2 [.toffoli [0, 1] 2 1] fun x => x.getD 0 0 * x.getD 1 0 := by
    apply classical_addsInto standardN_exact.sized numpy_lawful
    · simp [Call.Valid, InRange, spanOf]
    · simp [Call.Classical]
    · simp only [List.foldl_cons, List.foldl_nil, classicalStep]
      decide
  have := C62_deutsch_jozsa standardN_exact numpy_lawful (n := 2) (by simp [Call.Valid, InRange, spanOf]) h
  rw [show (states (List.replicate 2 2)) = [[0, 0], [0, 1], [1, 0], [1, 1]] from rfl] at this
  refine this.trans ?_
  norm_num

end

end QuDiet
