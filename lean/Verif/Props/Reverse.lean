import Verif.Props.Probability
import Verif.Props.Laws
import Verif.Lemmas.Linear

/-! # C71, C72, C78: runs that start in different levels stay apart, and every circuit can be undone -/

namespace QuDiet
open Spec

variable [UnitaryCheck ℂ] {N : Numerics ℂ}

/-! ### C71 -/

/-- The overlap product of two states. -/
noncomputable def overlap (dims : List Nat) (ψ φ : State ℂ) : ℂ := ((states dims).map fun s => ψ s * star (φ s)).sum

omit [UnitaryCheck ℂ] in
theorem overlap_congr {dims : List Nat} {ψ ψ' φ φ' : State ℂ} (h : EqOn dims ψ ψ') (h' : EqOn dims φ φ') :
    overlap dims ψ φ = overlap dims ψ' φ' := by
  unfold overlap
  apply map_congr_sum
  intro s hs
  rw [h s (mem_states.1 hs), h' s (mem_states.1 hs)]

omit [UnitaryCheck ℂ] in
theorem weigh_add (dims : List Nat) (ψ φ : State ℂ) (c : ℂ) :
    weigh (fun _ => 1) dims (fun s => 1 * ψ s + c * φ s) =
      weigh (fun _ => 1) dims ψ + c * star c * weigh (fun _ => 1) dims φ +
        star c * overlap dims ψ φ + c * overlap dims φ ψ := by
  unfold weigh overlap
  induction states dims with
  | nil => simp
  | cons s l ih =>
    simp only [List.map_cons, List.sum_cons]
    rw [ih]
    simp only [one_mul, star_add, star_mul']
    ring

/-- Unitary calls preserve overlap products. -/
theorem overlap_after (hN : N.Exact) {dims : List Nat} {ks : List (Call ℂ)} (hv : ∀ k ∈ ks, k.Valid dims)
    (hu : ∀ k ∈ ks, k.Isometric N dims) (ψ φ : State ℂ) :
    overlap dims (applyAll N dims ks ψ) (applyAll N dims ks φ) = overlap dims ψ φ := by
  have key : ∀ c : ℂ, star c * overlap dims (applyAll N dims ks ψ) (applyAll N dims ks φ) +
        c * overlap dims (applyAll N dims ks φ) (applyAll N dims ks ψ) =
      star c * overlap dims ψ φ + c * overlap dims φ ψ := by
    intro c
    have h1 := weigh_after hN hv hu (fun s => 1 * ψ s + c * φ s)
    have h2 : weigh (fun _ => 1) dims (applyAll N dims ks fun s => 1 * ψ s + c * φ s) =
        weigh (fun _ => 1) dims (fun s => 1 * applyAll N dims ks ψ s + c * applyAll N dims ks φ s) := by
      apply weigh_congr
      have := applyAll_sum N hv [(1, ψ), (c, φ)] Prod.fst Prod.snd
      simpa using this
    have e : weigh (fun _ => 1) dims (applyAll N dims ks fun s => 1 * ψ s + c * φ s) =
        weigh (fun _ => 1) dims fun s => 1 * ψ s + c * φ s := h1
    rw [h2, weigh_add, weigh_add] at e
    have n1 : weigh (fun _ => 1) dims (applyAll N dims ks ψ) = weigh (fun _ => 1) dims ψ := weigh_after hN hv hu ψ
    have n2 : weigh (fun _ => 1) dims (applyAll N dims ks φ) = weigh (fun _ => 1) dims φ := weigh_after hN hv hu φ
    rw [n1, n2] at e
    linear_combination e
  have k1 := key 1
  have ki := key Complex.I
  simp only [star_one, one_mul, Complex.star_def, Complex.conj_I] at k1 ki
  have hI : Complex.I * Complex.I = -1 := Complex.I_mul_I
  linear_combination (1 / 2 : ℂ) * k1 + (Complex.I / 2) * ki - (1 / 2 : ℂ) * (
    -overlap dims (applyAll N dims ks ψ) (applyAll N dims ks φ) +
    overlap dims (applyAll N dims ks φ) (applyAll N dims ks ψ) + overlap dims ψ φ - overlap dims φ ψ) * hI

omit [UnitaryCheck ℂ] in
theorem overlap_basis {dims s t : List Nat} (hs : Fits dims s) :
    overlap dims (basis s) (basis t) = if s = t then 1 else 0 := by
  unfold overlap basis
  rw [map_congr_sum (g := fun u => if s = u then (if s = t then (1 : ℂ) else 0) else 0) (by
      intro u _
      by_cases h : u = s
      · subst h
        by_cases h2 : u = t <;> simp [h2]
      · simp [h, Ne.symm h]),
    sum_ite_eq _ (nodup_states dims) s (mem_states.2 hs) fun _ => if s = t then (1 : ℂ) else 0]

/-- **C71.** The amplitudes of two runs of the same unitary calls are orthogonal if the initial levels differ in
any register, and otherwise the amplitudes of one run have length one. -/
theorem C71_orthogonal (hN : N.Exact) {B : Backend ℂ} (hB : B.Lawful) {dims : List Nat} (hne : dims ≠ [])
    {init init' : List Int} (h : ValidStart (dims.map Int.ofNat) init) (h' : ValidStart (dims.map Int.ofNat) init')
    {ks : List (Call ℂ)} (hks : ∀ k ∈ ks, k.Valid dims) (hu : ∀ k ∈ ks, k.Unitary dims) :
    ((states dims).map fun s => amplitude N B dims init ks s * star (amplitude N B dims init' ks s)).sum =
      if startLevels dims init = startLevels dims init' then 1 else 0 := by
  rw [← overlap_basis (startLevels_fits h), ← overlap_after hN hks (fun k hk => (hu k hk).isometric hN)]
  unfold overlap
  apply map_congr_sum
  intro s hs
  rw [amplitude_eq hN.sized hB hne h hks (mem_states.1 hs), amplitude_eq hN.sized hB hne h' hks (mem_states.1 hs)]
  rfl

/-- **C71.** For every outcome, the squared moduli of its amplitudes over all initial levels sum to one. -/
theorem C71_every_outcome (hN : N.Exact) {B : Backend ℂ} (hB : B.Lawful) {dims : List Nat} (hne : dims ≠ [])
    (h2 : ∀ d ∈ dims, 2 ≤ d) {ks : List (Call ℂ)} (hks : ∀ k ∈ ks, k.Valid dims)
    (hu : ∀ k ∈ ks, k.Unitary dims) {s : List Nat} (hs : Fits dims s) :
    ((states dims).map fun t => Complex.normSq (amplitude N B dims (asInit t) ks s)).sum = 1 := by
  classical
  let S := {t // t ∈ (states dims).toFinset}
  have hS : ∀ t : S, Fits dims t.1 := fun t => mem_states.1 (List.mem_toFinset.1 t.2)
  have toFin : ∀ f : List Nat → ℂ, ((states dims).map f).sum = ∑ t : S, f t.1 := by
    intro f
    rw [← List.sum_toFinset _ (nodup_states dims), ← Finset.sum_coe_sort]
  let A : Matrix S S ℂ := Matrix.of fun t s => amplitude N B dims (asInit t.1) ks s.1
  have hA : A * A.conjTranspose = 1 := by
    ext t t'
    rw [Matrix.mul_apply, Matrix.one_apply]
    have := C71_orthogonal hN hB hne (validStart_asInit h2 (hS t)) (validStart_asInit h2 (hS t')) hks hu
    rw [startLevels_asInit (hS t), startLevels_asInit (hS t'), toFin] at this
    simp only [Matrix.conjTranspose_apply, A, Matrix.of_apply]
    rw [this]
    by_cases htt : t = t'
    · subst htt; rw [if_pos rfl, if_pos rfl]
    · rw [if_neg htt, if_neg fun h => htt (Subtype.ext h)]
  have hA' : A.conjTranspose * A = 1 := mul_eq_one_comm.1 hA
  have := congrFun (congrFun hA' ⟨s, List.mem_toFinset.2 (mem_states.2 hs)⟩) ⟨s, List.mem_toFinset.2 (mem_states.2 hs)⟩
  rw [Matrix.mul_apply, Matrix.one_apply_eq] at this
  simp only [Matrix.conjTranspose_apply, A, Matrix.of_apply] at this
  have e := toFin fun t => star (amplitude N B dims (asInit t) ks s) * amplitude N B dims (asInit t) ks s
  rw [this] at e
  have e2 : ((((states dims).map fun t => Complex.normSq (amplitude N B dims (asInit t) ks s)).sum : ℝ) : ℂ) = 1 := by
    rw [← e]
    have cast : ∀ l : List ℝ, ((l.sum : ℝ) : ℂ) = (l.map Complex.ofReal).sum := by
      intro l
      induction l with
      | nil => simp
      | cons a l ih => simp [ih]
    rw [cast, List.map_map]
    apply map_congr_sum
    intro t _
    simp only [Function.comp, Complex.star_def]
    rw [mul_comm, Complex.mul_conj]
  exact_mod_cast e2

/-- **C71.** Without superpositions: different initial levels have different outcomes, and every list of levels
is the outcome for some initial levels. (For `x`, `cx` on two registers, and `toffoli`; any backend, any ring.) -/
theorem C71_classical_bijection {R : Type} [CommRing R] [StarRing R] [DecidableEq R] [UnitaryCheck R] [Nontrivial R]
    {N : Numerics R} (hN : N.Sized) {B : Backend R} (hB : B.Lawful) {dims : List Nat} (hne : dims ≠ [])
    (h2 : ∀ d ∈ dims, 2 ≤ d) {ks : List (Call R)} (hks : ∀ k ∈ ks, k.Valid dims) (hc : ∀ k ∈ ks, k.Classical)
    (hp : ∀ k ∈ ks, k.Proper) :
    ∃ f : List Nat → List Nat,
      (∀ s, Fits dims s → script N B (.list (dims.map Int.ofNat)) (asInit s) (some ⟨dims, .state, .amplitude⟩)
        (ks ++ [.measureAll]) = .ok [(.tup (f s), 1)]) ∧
      (∀ s, Fits dims s → Fits dims (f s)) ∧
      (∀ s t, Fits dims s → Fits dims t → f s = f t → s = t) ∧
      ∀ t, Fits dims t → ∃ s, Fits dims s ∧ f s = t := by
  obtain ⟨f, hf⟩ : ∃ f : List Nat → List Nat, f = fun s => ks.foldl (fun s k => classicalStep dims k s) s := ⟨_, rfl⟩
  have fits : ∀ s, Fits dims s → Fits dims (f s) := by
    intro s hs
    rw [hf]
    exact (classical_fold (N := N) ks hks hc hs).1
  have inj : ∀ s t, Fits dims s → Fits dims t → f s = f t → s = t := by
    rw [hf]
    clear hf fits f
    induction ks with
    | nil => intro s t _ _ h; exact h
    | cons k ks ih =>
      intro s t hs ht he
      have hv := hks k (by simp)
      have hck := hc k (by simp)
      have hstep := fun u hu => step_fits hv hck u hu
      have := ih (fun k hk => hks k (by simp [hk])) (fun k hk => hc k (by simp [hk]))
        (fun k hk => hp k (by simp [hk])) _ _ (hstep s hs) (hstep t ht) he
      rw [classicalStep_eq dims hck] at this
      have hr := classical_regs hv hck
      exact controlled_inj ht hs (target_lt hv hck) (fun hm => hp k (by simp) ((mem_toNat hr.2 hr.1).1 hm)) this
  refine ⟨f, ?_, fits, inj, ?_⟩
  · intro s hs
    rw [script_valid hN hB hne (validStart_asInit h2 hs) (by simp) hks []]
    have := (classical_fold (N := N) ks hks hc hs).2
    unfold stateAfter
    rw [startLevels_asInit hs, this, hf]
    have ho := outcome_basis (R := R) (fits s hs)
    rw [hf] at ho
    simp only [listing, ho]
    rfl
  · intro t ht
    have := (perm_map_states fits (fun s t hs ht h => inj t s ht hs h)).symm.subset (mem_states.2 ht)
    obtain ⟨s, hs, e⟩ := List.mem_map.1 this
    exact ⟨s, mem_states.1 hs, e⟩

/-- The hypotheses of the `C71` theorems: a qubit, a qutrit and a ququart. -/
example (hN : N.Exact) {B : Backend ℂ} (hB : B.Lawful) :
    ((states [2, 3, 4]).map fun s =>
      amplitude N B [2, 3, 4] [0, 2] [.h 0 none, .h 1 none, .cx 0 2 3, .z 2 none] s *
        star (amplitude N B [2, 3, 4] [1, 2] [.h 0 none, .h 1 none, .cx 0 2 3, .z 2 none] s)).sum = 0 := by
  rw [C71_orthogonal hN hB (by simp) (validStart_of rfl) (validStart_of rfl)
    (by simp [Call.Valid, InRange, DimOK]) (by simp [Call.Unitary])]
  exact if_neg (by decide)

example (hN : N.Exact) {B : Backend ℂ} (hB : B.Lawful) :=
  C71_every_outcome hN hB (dims := [2, 3, 4]) (by simp) (by simp)
    (ks := [.h 0 none, .h 1 none, .cx 0 2 3, .z 2 none]) (by simp [Call.Valid, InRange, DimOK])
    (by simp [Call.Unitary]) (s := [1, 2, 3]) (by simp [Fits]; decide)

example {B : Backend ℤ} (hB : B.Lawful) :=
  C71_classical_bijection sampleN_sized hB (dims := [3, 2, 4]) (by simp) (by simp)
    (ks := [.toffoli [0, 1] 2 1, .cx 2 1 (-3), .x 0 none 1])
    (by simp [Call.Valid, InRange, DimOK, spanOf]) (by simp [Call.Classical])
    (by simp [Call.Proper, Call.target, Call.controls])

/-! ### C72 -/

/-- The calls that undo a call: the opposite increment, three more `h`, or `z` until it has been made as often as
the register has levels. -/
def Call.inverse {R : Type} (dims : List Nat) : Call R → List (Call R)
  | .h q k => List.replicate 3 (.h q k)
  | .z q k => List.replicate (dims.getD q.toNat 0 - 1) (.z q k)
  | .x q k p => [.x q k (-p % (dims.getD q.toNat 0 : Int))]
  | .cx c t p => [.cx c t (-p)]
  | .toffoli cs t p => [.toffoli cs t (-p)]
  | k => [k]

/-- The calls that have an inverse made of calls: all gates but custom ones, `h` only on qubits and qutrits, and
`cx` with two different registers. -/
def Call.Reversible {R : Type} (dims : List Nat) : Call R → Prop
  | .h q _ => dims.getD q.toNat 0 = 2 ∨ dims.getD q.toNat 0 = 3
  | .cx c t _ => c ≠ t
  | .gate .. => False
  | _ => True

/-- The calls that undo `ks`: last call first. -/
def undoAll {R : Type} (dims : List Nat) (ks : List (Call R)) : List (Call R) :=
  ks.reverse.flatMap (Call.inverse dims)

theorem inverse_valid {dims : List Nat} {k : Call ℂ} (hv : k.Valid dims) (hr : k.Reversible dims) :
    ∀ j ∈ k.inverse dims, j.Valid dims := by
  cases k with
  | h q k => intro j hj; rw [List.eq_of_mem_replicate hj]; exact hv
  | z q k => intro j hj; rw [List.eq_of_mem_replicate hj]; exact hv
  | x q k p =>
    intro j hj
    rw [List.mem_singleton.1 hj]
    have hd : 0 < (dims.getD q.toNat 0 : Int) := by
      have h1 := hv.2.2.1; have h2 := hv.2.2.2; omega
    have h1 := Int.emod_nonneg (-p) hd.ne'
    have h2 := Int.emod_lt_of_pos (-p) hd
    exact ⟨hv.1, hv.2.1, by omega, h2⟩
  | cx c t p => intro j hj; rw [List.mem_singleton.1 hj]; exact hv
  | toffoli cs t p => intro j hj; rw [List.mem_singleton.1 hj]; exact hv
  | gate => exact hr.elim
  | measure => exact hv.elim
  | measureAll => exact hv.elim

/-- One call and the calls that undo it. -/
theorem inverse_effect (hN : N.Exact) {dims : List Nat} {a : Call ℂ} (ha : a.Valid dims) (hr : a.Reversible dims) :
    SameEffect N dims (a :: a.inverse dims) [] := by
  have hiv := inverse_valid ha hr
  have classical : ∀ {b : Call ℂ}, b.Valid dims → b.Classical → a.Classical → a.Proper → b.controls = a.controls →
      b.target = a.target → b.inc ≡ -a.inc [ZMOD dims.getD a.target.toNat 0] → a.inverse dims = [b] →
      SameEffect N dims (a :: a.inverse dims) [] := by
    intro b hb hbc hac hap h1 h2 h3 h4 ψ
    rw [h4]
    simp only [List.foldl_cons, List.foldl_nil]
    rw [meaning_classical N dims hac, meaning_classical N dims hbc, move_move (step_fits ha hac)]
    apply move_id
    intro s hs
    simp only [classicalStep_eq dims hac, classicalStep_eq dims hbc, h1, h2]
    rw [controlled_congr (fun c => Iff.rfl) h3]
    have hrr := classical_regs ha hac
    exact controlled_neg hs (target_lt ha hac) (fun hm => hap ((mem_toNat hrr.2 hrr.1).1 hm)) _
  cases a with
  | h q k =>
    have hq : q.toNat < dims.length := by have := ha.1.1; have := ha.1.2; omega
    intro ψ
    simp only [Call.inverse, List.replicate, List.foldl_cons, List.foldl_nil, meaning]
    refine (onReg_onReg hq _ _ _).trans' (((onReg_eqOn hq _ (onReg_onReg hq _ _ _)).trans'
      (onReg_onReg hq _ _ _)).trans' (onReg_one hq ?_ _))
    intro i hi j hj
    rw [map_congr_sum (g := fun k => (if (i + k) % dims.getD q.toNat 0 = 0 then (1 : ℂ) else 0) *
        if (k + j) % dims.getD q.toNat 0 = 0 then 1 else 0) (by
      intro k hk
      have hk := List.mem_range.1 hk
      rw [hadamard_sq hN hr hi hk, hadamard_sq hN hr hk hj])]
    have hr : dims.getD q.toNat 0 = 2 ∨ dims.getD q.toNat 0 = 3 := hr
    rcases hr with hd | hd <;> rw [hd] at hi hj ⊢
    · have hi' : i = 0 ∨ i = 1 := by omega
      have hj' : j = 0 ∨ j = 1 := by omega
      rcases hi' with rfl | rfl <;> rcases hj' with rfl | rfl <;> simp [List.range_succ]
    · have hi' : i = 0 ∨ i = 1 ∨ i = 2 := by omega
      have hj' : j = 0 ∨ j = 1 ∨ j = 2 := by omega
      rcases hi' with rfl | rfl | rfl <;> rcases hj' with rfl | rfl | rfl <;> simp [range_three]
  | z q k =>
    have hq : q.toNat < dims.length := by have := ha.1.1; have := ha.1.2; omega
    have many : ∀ n (ψ : State ℂ), EqOn dims ((List.replicate n (.z q k)).foldl (fun ψ k => meaning N dims k ψ) ψ)
        (fun s => (N.roots (dims.getD q.toNat 0)).getD (s.getD q.toNat 0) 0 ^ n * ψ s) := by
      intro n
      induction n with
      | zero => intro ψ s _; simp
      | succ n ih =>
        intro ψ s hs
        rw [List.replicate_succ, List.foldl_cons, ih _ s hs]
        simp only [meaning]
        rw [onReg_phases hs hq]
        ring
    intro ψ s hs
    have hpos : 0 < dims.getD q.toNat 0 := lt_of_le_of_lt (Nat.zero_le _) (fits_getD_lt hs _ hq)
    have e : Call.z (R := ℂ) q k :: (Call.z q k).inverse dims = List.replicate (dims.getD q.toNat 0) (.z q k) := by
      simp only [Call.inverse]
      rw [← List.replicate_succ, Nat.sub_add_cancel hpos]
    rw [e, many _ ψ s hs]
    simp only [List.foldl_nil]
    rw [hN.root (fits_getD_lt hs _ hq), one_mul]
  | x q k p =>
    refine classical (hiv _ (List.mem_singleton.2 rfl)) trivial trivial (by simp [Call.Proper, Call.target, Call.controls])
        rfl rfl ?_ rfl
    exact Int.mod_modEq _ _
  | cx c t p =>
    refine classical (hiv _ (List.mem_singleton.2 rfl)) trivial trivial ?_ rfl rfl (Int.ModEq.refl _) rfl
    have : c ≠ t := hr
    simp [Call.Proper, Call.target, Call.controls, this.symm]
  | toffoli cs t p =>
    exact classical (hiv _ (List.mem_singleton.2 rfl)) trivial trivial ha.2.2.1 rfl rfl (Int.ModEq.refl _) rfl
  | gate => exact hr.elim
  | measure => exact ha.elim
  | measureAll => exact ha.elim

theorem drop_inverse (hN : N.Exact) {B : Backend ℂ} (hB : B.Lawful) {dims : List Nat} (hne : dims ≠ [])
    {init : List Int} {out : Option Output} (h : ValidStart (dims.map Int.ofNat) init) {pre post : List (Call ℂ)}
    (hpre : ∀ k ∈ pre, k.Valid dims) (hpost : ∀ k ∈ post, k.Valid dims) {a : Call ℂ} (ha : a.Valid dims)
    (hr : a.Reversible dims) :
    script N B (.list (dims.map Int.ofNat)) init out (pre ++ (a :: a.inverse dims) ++ post ++ [.measureAll]) =
      script N B (.list (dims.map Int.ofNat)) init out (pre ++ post ++ [.measureAll]) := by
  have hall : ∀ k ∈ a :: a.inverse dims, k.Valid dims := by
    intro k hk
    rcases List.mem_cons.1 hk with rfl | hk
    exacts [ha, inverse_valid ha hr k hk]
  have e0 : pre ++ post ++ [Call.measureAll] = pre ++ [] ++ post ++ [.measureAll] := by simp
  rw [e0]
  exact script_replace hN.sized hB hne h hpre hall (by simp) hpost (inverse_effect hN ha hr)

/-- Calls and the calls that undo them. -/
theorem undoAll_effect (hN : N.Exact) {dims : List Nat} {ks : List (Call ℂ)} (hks : ∀ k ∈ ks, k.Valid dims)
    (hr : ∀ k ∈ ks, k.Reversible dims) : SameEffect N dims (ks ++ undoAll dims ks) [] := by
  induction ks with
  | nil => exact fun ψ s _ => rfl
  | cons a ks ih =>
    intro ψ
    have e : a :: ks ++ undoAll dims (a :: ks) = [a] ++ (ks ++ undoAll dims ks) ++ a.inverse dims := by simp [undoAll]
    have h1 := ih (fun k hk => hks k (by simp [hk])) (fun k hk => hr k (by simp [hk])) (meaning N dims a ψ)
    have h2 := inverse_effect hN (hks a (by simp)) (hr a (by simp)) ψ
    rw [e, List.foldl_append, List.foldl_append]
    exact (fold_eqOn _ (inverse_valid (hks a (by simp)) (hr a (by simp))) h1).trans' h2

/-! ### C78 -/

theorem inverse_unitary {dims : List Nat} {k : Call ℂ} (hv : k.Valid dims) (hr : k.Reversible dims) :
    ∀ j ∈ k.inverse dims, j.Unitary dims := by
  cases k with
  | h q k => intro j hj; rw [List.eq_of_mem_replicate hj]; exact hr
  | z q k => intro j hj; rw [List.eq_of_mem_replicate hj]; trivial
  | x q k p => intro j hj; rw [List.mem_singleton.1 hj]; trivial
  | cx c t p => intro j hj; rw [List.mem_singleton.1 hj]; exact hr
  | toffoli cs t p => intro j hj; rw [List.mem_singleton.1 hj]; trivial
  | gate => exact hr.elim
  | measure => exact hv.elim
  | measureAll => exact hv.elim

theorem overlap_basis_left {dims s : List Nat} (hs : Fits dims s) (ψ : State ℂ) :
    overlap dims ψ (basis s) = ψ s := by
  unfold overlap basis
  rw [map_congr_sum (g := fun u => if s = u then ψ u else 0) (by
      intro u _
      by_cases h : u = s
      · subst h; simp
      · simp [h, Ne.symm h]),
    sum_ite_eq _ (nodup_states dims) s (mem_states.2 hs) fun u => ψ u]

theorem overlap_symm (dims : List Nat) (ψ φ : State ℂ) : overlap dims ψ φ = star (overlap dims φ ψ) := by
  unfold overlap
  induction states dims with
  | nil => simp
  | cons s l ih =>
    simp only [List.map_cons, List.sum_cons, star_add, star_mul', star_star] at ih ⊢
    rw [ih, mul_comm]

/-- **C78.** The calls that undo a circuit have the conjugate amplitudes, in the opposite direction. -/
theorem C78_backward (hN : N.Exact) {B : Backend ℂ} (hB : B.Lawful) {dims : List Nat} (hne : dims ≠ [])
    (h2 : ∀ d ∈ dims, 2 ≤ d) {ks : List (Call ℂ)} (hks : ∀ k ∈ ks, k.Valid dims) (hr : ∀ k ∈ ks, k.Reversible dims)
    {s t : List Nat} (hs : Fits dims s) (ht : Fits dims t) :
    amplitude N B dims (asInit t) (undoAll dims ks) s = star (amplitude N B dims (asInit s) ks t) := by
  have hv : ∀ k ∈ undoAll dims ks, k.Valid dims := by
    intro j hj
    obtain ⟨k, hk, hj⟩ := List.mem_flatMap.1 hj
    rw [List.mem_reverse] at hk
    exact inverse_valid (hks k hk) (hr k hk) j hj
  have hu : ∀ k ∈ undoAll dims ks, k.Isometric N dims := by
    intro j hj
    obtain ⟨k, hk, hj⟩ := List.mem_flatMap.1 hj
    rw [List.mem_reverse] at hk
    exact (inverse_unitary (hks k hk) (hr k hk) j hj).isometric hN
  rw [amplitude_eq hN.sized hB hne (validStart_asInit h2 ht) hv hs,
    amplitude_eq hN.sized hB hne (validStart_asInit h2 hs) hks ht, stateAfter_eq, stateAfter_eq,
    startLevels_asInit ht, startLevels_asInit hs, ← overlap_basis_left ht (applyAll N dims ks (basis s)),
    ← overlap_symm, ← overlap_after hN hv hu (basis t), ← applyAll_append,
    ← overlap_basis_left hs (applyAll N dims (undoAll dims ks) (basis t))]
  exact overlap_congr (fun _ _ => rfl) (undoAll_effect hN hks hr (basis s)).symm'

/-- The circuit of the example below, from its other end. -/
example (hN : N.Exact) {B : Backend ℂ} (hB : B.Lawful) :
    amplitude N B [2, 3, 4] (asInit [1, 0, 3]) ([.z 1 none, .z 1 none] ++ [.cx 0 2 (-3)] ++
        [.h 1 (some 3), .h 1 (some 3), .h 1 (some 3)] ++ [.h 0 none, .h 0 none, .h 0 none]) [0, 2, 1] =
      star (amplitude N B [2, 3, 4] (asInit [0, 2, 1]) [.h 0 none, .h 1 (some 3), .cx 0 2 3, .z 1 none] [1, 0, 3]) :=
  C78_backward hN hB (dims := [2, 3, 4]) (by simp) (by simp) (ks := [.h 0 none, .h 1 (some 3), .cx 0 2 3, .z 1 none])
    (by simp [Call.Valid, InRange, DimOK]) (by simp [Call.Reversible]) (by simp [Fits]; decide) (by simp [Fits]; decide)

/-- **C72.** Any valid calls of `x`, `z`, `cx`, `toffoli` and, on qubits and qutrits, `h` can be undone by further
calls of the same kind: after them, the rest of the circuit gives the same result as if none had been made. -/
theorem C72_undo_all (hN : N.Exact) {B : Backend ℂ} (hB : B.Lawful) {dims : List Nat} (hne : dims ≠ [])
    {init : List Int} {out : Option Output} (h : ValidStart (dims.map Int.ofNat) init) {pre ks post : List (Call ℂ)}
    (hpre : ∀ k ∈ pre, k.Valid dims) (hks : ∀ k ∈ ks, k.Valid dims) (hr : ∀ k ∈ ks, k.Reversible dims)
    (hpost : ∀ k ∈ post, k.Valid dims) :
    script N B (.list (dims.map Int.ofNat)) init out (pre ++ (ks ++ undoAll dims ks) ++ post ++ [.measureAll]) =
      script N B (.list (dims.map Int.ofNat)) init out (pre ++ post ++ [.measureAll]) := by
  induction ks generalizing pre post with
  | nil => simp [undoAll]
  | cons a ks ih =>
    have ha := hks a (by simp)
    have hra := hr a (by simp)
    have e : pre ++ (a :: ks ++ undoAll dims (a :: ks)) ++ post =
        (pre ++ [a]) ++ (ks ++ undoAll dims ks) ++ (a.inverse dims ++ post) := by
      simp [undoAll]
    rw [e, ih]
    · have := drop_inverse (out := out) hN hB hne h hpre hpost ha hra
      simpa using this
    · intro k hk
      rcases List.mem_append.1 hk with hk | hk
      · exact hpre k hk
      · rw [List.mem_singleton.1 hk]; exact ha
    · exact fun k hk => hks k (by simp [hk])
    · exact fun k hk => hr k (by simp [hk])
    · intro k hk
      rcases List.mem_append.1 hk with hk | hk
      · exact inverse_valid ha hra k hk
      · exact hpost k hk

/-- **C72** for a whole circuit: calls and the calls that undo them give the initial levels back, with certainty. -/
theorem C72_back_to_start (hN : N.Exact) {B : Backend ℂ} (hB : B.Lawful) {dims : List Nat} (hne : dims ≠ [])
    {init : List Int} (h : ValidStart (dims.map Int.ofNat) init) {ks : List (Call ℂ)}
    (hks : ∀ k ∈ ks, k.Valid dims) (hr : ∀ k ∈ ks, k.Reversible dims) :
    script N B (.list (dims.map Int.ofNat)) init none (ks ++ undoAll dims ks ++ [.measureAll]) =
      .ok [(.str (label (startLevels dims init)), 1)] := by
  have := C72_undo_all (out := none) hN hB hne h (pre := []) (post := []) (by simp) hks hr (by simp)
  simp only [List.nil_append, List.append_nil] at this
  rw [this]
  exact C02_classical_single_outcome hN.sized hB hne h (ks := []) (by simp) (by simp)

/-- Two superposed registers, a phase and a controlled increment, undone. -/
example (hN : N.Exact) {B : Backend ℂ} (hB : B.Lawful) :
    script N B (.list [2, 3, 4]) [1, 2] none
      ([.h 0 none, .h 1 (some 3), .cx 0 2 3, .z 1 none, .x 2 none (-4)] ++
        ([.x 2 none 0] ++ [.z 1 none, .z 1 none] ++ [.cx 0 2 (-3)] ++
          [.h 1 (some 3), .h 1 (some 3), .h 1 (some 3)] ++ [.h 0 none, .h 0 none, .h 0 none]) ++ [.measureAll]) =
      .ok [(.str "|120>".toList, 1)] := by
  refine (C72_back_to_start hN hB (dims := [2, 3, 4]) (by simp) (init := [1, 2]) (validStart_of rfl)
    (ks := [.h 0 none, .h 1 (some 3), .cx 0 2 3, .z 1 none, .x 2 none (-4)])
    (by simp [Call.Valid, InRange, DimOK]) (by simp [Call.Reversible])).trans rfl

end QuDiet
