import Verif.Props.Sequential
import Mathlib.Data.Int.ModEq

/-! # C45 to C51: circuit identities

Which changes to a circuit leave the result of `run()` alone, and what a single call does to it. -/

namespace QuDiet
open Spec

variable {R : Type} [CommRing R] [StarRing R] [DecidableEq R] [UnitaryCheck R]

/-! ### Replacing a part of a circuit -/

/-- Two lists of calls do the same to every state. -/
def SameEffect (N : Numerics R) (dims : List Nat) (as bs : List (Call R)) : Prop :=
  ∀ ψ : State R, EqOn dims (as.foldl (fun ψ k => meaning N dims k ψ) ψ)
    (bs.foldl (fun ψ k => meaning N dims k ψ) ψ)

theorem script_replace [Nontrivial R] {N : Numerics R} (hN : N.Sized) {B : Backend R} (hB : B.Lawful)
    {dims : List Nat} (hne : dims ≠ []) {init : List Int} {out : Option Output} (h : ValidStart (dims.map Int.ofNat) init)
    {pre as bs post : List (Call R)} (hpre : ∀ k ∈ pre, k.Valid dims)
    (ha : ∀ k ∈ as, k.Valid dims) (hb : ∀ k ∈ bs, k.Valid dims)
    (hpost : ∀ k ∈ post, k.Valid dims) (heq : SameEffect N dims as bs) :
    script N B (.list (dims.map Int.ofNat)) init out (pre ++ as ++ post ++ [.measureAll]) =
      script N B (.list (dims.map Int.ofNat)) init out (pre ++ bs ++ post ++ [.measureAll]) := by
  have v : ∀ {xs : List (Call R)}, (∀ k ∈ xs, k.Valid dims) → ∀ k ∈ pre ++ xs ++ post, k.Valid dims := by
    intro xs hx k hk
    rcases List.mem_append.1 hk with hk | hk
    · rcases List.mem_append.1 hk with hk | hk
      · exact hpre k hk
      · exact hx k hk
    · exact hpost k hk
  refine script_congr hN hB hne h h out (v ha) (v hb) ?_ [] []
  unfold stateAfter
  rw [List.foldl_append, List.foldl_append, List.foldl_append, List.foldl_append]
  exact fold_eqOn post hpost (heq _)

/-! ### The controlled increments -/

/-- The controls of a call. -/
def Call.controls : Call R → List Int
  | .cx c _ _ => [c]
  | .toffoli cs _ _ => cs
  | _ => []

/-- The register that an increment is added to. -/
def Call.target : Call R → Int
  | .x q _ _ => q
  | .cx _ t _ => t
  | .toffoli _ t _ => t
  | _ => 0

/-- The increment. -/
def Call.inc : Call R → Int
  | .x _ _ p => p
  | .cx _ _ p => p
  | .toffoli _ _ p => p
  | _ => 0

/-- The same call with another increment. -/
def Call.withInc (p : Int) : Call R → Call R
  | .x q k _ => .x q k p
  | .cx c t _ => .cx c t p
  | .toffoli cs t _ => .toffoli cs t p
  | k => k

theorem classicalStep_eq (dims : List Nat) {k : Call R} (hc : k.Classical) :
    classicalStep dims k = controlled dims (k.controls.map Int.toNat) k.target.toNat k.inc := by
  cases k with
  | x q k p => exact bump_eq_controlled dims _ p
  | cx => rfl
  | toffoli => rfl
  | h => exact hc.elim
  | z => exact hc.elim
  | gate => exact hc.elim
  | measure => exact hc.elim
  | measureAll => exact hc.elim

theorem meaning_classical (N : Numerics R) (dims : List Nat) {k : Call R} (hc : k.Classical) (ψ : State R) :
    meaning N dims k ψ = move dims (classicalStep dims k) ψ := by
  cases k with
  | x q k p => rfl
  | cx => rfl
  | toffoli => rfl
  | h => exact hc.elim
  | z => exact hc.elim
  | gate => exact hc.elim
  | measure => exact hc.elim
  | measureAll => exact hc.elim

theorem classical_regs {dims : List Nat} {k : Call R} (hv : k.Valid dims) (hc : k.Classical) :
    InRange dims k.target ∧ ∀ c ∈ k.controls, InRange dims c := by
  cases k with
  | x q k p => exact ⟨hv.1, by simp [Call.controls]⟩
  | cx c t p => exact ⟨hv.2, by simpa [Call.controls] using hv.1⟩
  | toffoli cs t p => exact ⟨hv.1, hv.2.1⟩
  | h => exact hc.elim
  | z => exact hc.elim
  | gate => exact hc.elim
  | measure => exact hc.elim
  | measureAll => exact hc.elim

theorem target_lt {dims : List Nat} {k : Call R} (hv : k.Valid dims) (hc : k.Classical) :
    k.target.toNat < dims.length := by
  have := (classical_regs hv hc).1
  unfold InRange at this
  omega

theorem step_fits {dims : List Nat} {k : Call R} (hv : k.Valid dims) (hc : k.Classical) :
    ∀ s, Fits dims s → Fits dims (classicalStep dims k s) := by
  intro s hs
  rw [classicalStep_eq dims hc]
  exact fits_controlled hs _ _ (target_lt hv hc) _

theorem mem_toNat {dims : List Nat} {cs : List Int} (h : ∀ c ∈ cs, InRange dims c) {t : Int}
    (ht : InRange dims t) : t.toNat ∈ cs.map Int.toNat ↔ t ∈ cs := by
  rw [List.mem_map]
  constructor
  · rintro ⟨c, hc, e⟩
    have := (h c hc).1
    have := ht.1
    have : c = t := by omega
    exact this ▸ hc
  · exact fun h => ⟨t, h, rfl⟩

/-- A call names its target only as target: no `cx(q, q)`. (A `toffoli` that does is not valid.) -/
def Call.Proper (k : Call R) : Prop := k.target ∉ k.controls

theorem bump_modEq (dims : List Nat) (q : Nat) {p p' : Int} (h : p ≡ p' [ZMOD dims.getD q 0]) :
    bump dims q p = bump dims q p' := by
  funext s
  unfold bump
  rw [Int.add_emod, h, ← Int.add_emod]

theorem controlled_congr {dims cs cs' : List Nat} {t : Nat} {p p' : Int} (hcs : ∀ c, c ∈ cs ↔ c ∈ cs')
    (h : p ≡ p' [ZMOD dims.getD t 0]) : controlled dims cs t p = controlled dims cs' t p' := by
  funext s
  unfold controlled
  rw [bump_modEq dims t h]
  simp only [hcs]

theorem sameEffect_of_step {N : Numerics R} {dims : List Nat} {a b : Call R} (ha : a.Classical)
    (hb : b.Classical) (h : classicalStep dims a = classicalStep dims b) : SameEffect N dims [a] [b] := by
  intro ψ s _
  simp only [List.foldl_cons, List.foldl_nil]
  rw [meaning_classical N dims ha, meaning_classical N dims hb, h]

/-! ### C45 -/

/-- The calls `x(0, init[0]), x(1, init[1]), …`. -/
def setLevels (init : List Int) : List (Call R) :=
  (List.range init.length).map fun i : Nat => .x i none (init.getD i 0)

omit [CommRing R] [StarRing R] [DecidableEq R] [UnitaryCheck R] in
theorem bump_levels {dims : List Nat} {init : List Int} {m : Nat} (hm : m < init.length)
    (hl : init.length ≤ dims.length) :
    bump dims m (init.getD m 0) (startLevels dims (init.take m)) = startLevels dims (init.take (m + 1)) := by
  have hm' : m < dims.length := by omega
  apply List.ext_getElem
  · simp [bump, startLevels]
  · intro i h1 h2
    have hi : i < dims.length := by simpa [bump, startLevels] using h1
    have e0 : (startLevels dims (init.take m)).getD m 0 = 0 := by
      simp [startLevels, List.getD_eq_getElem?_getD, hm']
    simp only [bump, e0, List.getElem_set]
    by_cases him : m = i
    · subst him
      rw [if_pos rfl]
      simp only [startLevels, List.getElem_map, List.getElem_range]
      congr 1
      simp [List.getD_eq_getElem?_getD, hm]
    · rw [if_neg him]
      simp only [startLevels, List.getElem_map, List.getElem_range]
      congr 2
      simp only [List.getD_eq_getElem?_getD, List.getElem?_take]
      by_cases h3 : i < m
      · simp [h3, show i < m + 1 by omega]
      · simp [h3, show ¬ i < m + 1 by omega]

theorem fold_setLevels {N : Numerics R} {dims : List Nat} {init : List Int}
    (h : ValidStart (dims.map Int.ofNat) init) (m : Nat) (hm : m ≤ init.length) :
    ((List.range m).map fun i : Nat => (.x i none (init.getD i 0) : Call R)).foldl
      (fun ψ k => meaning N dims k ψ) (basis (startLevels dims [])) =
      basis (startLevels dims (init.take m)) := by
  have hl : init.length ≤ dims.length := by simpa using h.2.1
  induction m with
  | zero => rfl
  | succ m ih =>
    rw [List.range_succ, List.map_append, List.foldl_append, ih (by omega)]
    have hf : Fits dims (startLevels dims (init.take m)) := by
      apply startLevels_fits
      refine ⟨h.1, by simp; omega, ?_⟩
      intro i h1 h2
      simp only [List.getElem_take]
      exact h.2.2 i (by simp at h1; omega) h2
    simp only [List.map_cons, List.map_nil, List.foldl_cons, List.foldl_nil, meaning]
    rw [move_basis hf]
    simp only [Int.toNat_natCast]
    rw [bump_levels (by omega) hl]

/-- **C45.** A circuit constructed with the initial levels `init` gives the same result as one that
starts with all registers in level 0 and begins with the call `x(i, init[i])` for each entry. -/
theorem C45_initial_levels_are_x_calls [Nontrivial R] {N : Numerics R} (hN : N.Sized) {B : Backend R}
    (hB : B.Lawful) {dims : List Nat} (hne : dims ≠ []) {init : List Int} {out : Option Output}
    (h : ValidStart (dims.map Int.ofNat) init) {ks : List (Call R)} (hks : ∀ k ∈ ks, k.Valid dims) :
    script N B (.list (dims.map Int.ofNat)) init out (ks ++ [.measureAll]) =
      script N B (.list (dims.map Int.ofNat)) [] out (setLevels init ++ ks ++ [.measureAll]) := by
  have h0 : ValidStart (dims.map Int.ofNat) [] := ⟨h.1, by simp, by simp⟩
  have hl : init.length ≤ dims.length := by simpa using h.2.1
  have hset : ∀ k ∈ setLevels (R := R) init, k.Valid dims := by
    intro k hk
    obtain ⟨i, hi, rfl⟩ := List.mem_map.1 hk
    have hi : i < init.length := by simpa using hi
    have h3 := h.2.2 i hi (by simpa using show i < dims.length by omega)
    refine ⟨⟨by simp, by simp; omega⟩, .inl rfl, ?_⟩
    have hd : i < dims.length := by omega
    simp only [List.getElem_map] at h3
    simpa [List.getD_eq_getElem?_getD, hi, hd] using h3
  refine script_congr hN hB hne h h0 out hks (ks' := setLevels init ++ ks) (by
    intro k hk
    rcases List.mem_append.1 hk with hk | hk
    · exact hset k hk
    · exact hks k hk) ?_ [] []
  unfold stateAfter
  rw [List.foldl_append, setLevels, fold_setLevels h init.length (le_refl _), List.take_length]
  exact fun _ _ => rfl

example {B : Backend ℤ} (hB : B.Lawful) :
    script sampleN B (.list [3, 2, 4]) [2, -1] none ([.h 0 none, .cx 0 2 1] ++ [.measureAll]) =
    script sampleN B (.list [3, 2, 4]) [] none
      ([.x 0 none 2, .x 1 none (-1), .h 0 none, .cx 0 2 1] ++ [.measureAll]) := by
  refine C45_initial_levels_are_x_calls sampleN_sized hB (dims := [3, 2, 4]) (by simp) (init := [2, -1])
    (validStart_of rfl) (ks := [.h 0 none, .cx 0 2 1]) ?_
  simp [Call.Valid, InRange, DimOK]

/-! ### C46 -/

theorem undo_effect {N : Numerics R} {dims : List Nat} {a : Call R} (ha : a.Valid dims) (hc : a.Classical)
    (hp : a.Proper) : SameEffect N dims [a, a.undo] [] := by
  have hcu : a.undo.Classical := by cases a <;> first | trivial | exact hc.elim
  have e : classicalStep dims a.undo =
      controlled dims (a.controls.map Int.toNat) a.target.toNat (-a.inc) := by
    rw [classicalStep_eq dims hcu]
    cases a <;> first | rfl | exact hc.elim
  intro ψ
  simp only [List.foldl_cons, List.foldl_nil]
  rw [meaning_classical N dims hc, meaning_classical N dims hcu, move_move (step_fits ha hc)]
  apply move_id
  intro s hs
  simp only [e, classicalStep_eq dims hc]
  have hr := classical_regs ha hc
  exact controlled_neg hs (target_lt ha hc) (fun hm => hp ((mem_toNat hr.2 hr.1).1 hm)) _

/-- **C46.** Classical calls followed by the calls with opposite increments in reverse order leave the
result of `run()` as if none of them had been made. -/
theorem C46_uncompute [Nontrivial R] {N : Numerics R} (hN : N.Sized) {B : Backend R} (hB : B.Lawful)
    {dims : List Nat} (hne : dims ≠ []) {init : List Int} {out : Option Output} (h : ValidStart (dims.map Int.ofNat) init)
    {pre ks post : List (Call R)} (hpre : ∀ k ∈ pre, k.Valid dims) (hpost : ∀ k ∈ post, k.Valid dims)
    (hks : ∀ k ∈ ks, k.Valid dims ∧ k.undo.Valid dims ∧ k.Classical ∧ k.Proper) :
    script N B (.list (dims.map Int.ofNat)) init out
        (pre ++ (ks ++ ks.reverse.map Call.undo) ++ post ++ [.measureAll]) =
      script N B (.list (dims.map Int.ofNat)) init out (pre ++ post ++ [.measureAll]) := by
  have hr : pre ++ post ++ [Call.measureAll] = pre ++ [] ++ post ++ [.measureAll] := by simp
  rw [hr]
  refine script_replace hN hB hne h hpre ?_ (by simp) hpost ?_
  · intro k hk
    rcases List.mem_append.1 hk with hk | hk
    · exact (hks k hk).1
    · obtain ⟨a, ha, rfl⟩ := List.mem_map.1 hk
      exact (hks a (List.mem_reverse.1 ha)).2.1
  · clear hr hpre hpost
    induction ks with
    | nil => intro ψ; exact fun _ _ => rfl
    | cons a ks ih =>
      intro ψ
      have h1 := hks a (by simp)
      have e : a :: ks ++ (a :: ks).reverse.map Call.undo
          = [a] ++ (ks ++ ks.reverse.map Call.undo) ++ [a.undo] := by simp
      rw [e, List.foldl_append, List.foldl_append]
      have h2 := ih (fun k hk => hks k (by simp [hk])) ([a].foldl (fun ψ k => meaning N dims k ψ) ψ)
      have h3 := fold_eqOn (N := N) [a.undo] (by simpa using h1.2.1) h2
      have h4 := undo_effect (N := N) h1.1 h1.2.2.1 h1.2.2.2 ψ
      exact fun s hs => (h3 s hs).trans (h4 s hs)

/-- **C46** for a whole circuit: the registers are back in their initial levels. -/
theorem C46_back_to_start [Nontrivial R] {N : Numerics R} (hN : N.Sized) {B : Backend R} (hB : B.Lawful)
    {dims : List Nat} (hne : dims ≠ []) {init : List Int} (h : ValidStart (dims.map Int.ofNat) init)
    {ks : List (Call R)} (hks : ∀ k ∈ ks, k.Valid dims ∧ k.undo.Valid dims ∧ k.Classical ∧ k.Proper) :
    script N B (.list (dims.map Int.ofNat)) init none (ks ++ ks.reverse.map Call.undo ++ [.measureAll]) =
      .ok [(.str (label (startLevels dims init)), 1)] := by
  have := C46_uncompute (out := none) hN hB hne h (pre := []) (post := []) (by simp) (by simp) hks
  simp only [List.nil_append, List.append_nil] at this
  rw [this]
  exact C02_classical_single_outcome hN hB hne h (ks := []) (by simp) (by simp)

example {B : Backend ℤ} (hB : B.Lawful) :
    script sampleN B (.list [3, 2, 4]) [2, 1, 3] none
      ([.toffoli [0, 1] 2 1, .cx 2 1 (-3), .x 0 none 1] ++
        [.toffoli [0, 1] 2 1, .cx 2 1 (-3), .x 0 none 1].reverse.map Call.undo ++ [.measureAll]) =
    .ok [(.str "|213>".toList, 1)] := by
  rw [show (.list [3, 2, 4] : RegsArg) = .list ([3, 2, 4].map Int.ofNat) from rfl,
    C46_back_to_start sampleN_sized hB (by simp)]
  · rfl
  · exact validStart_of rfl
  · intro k hk
    fin_cases hk <;> simp [Call.Valid, InRange, DimOK, spanOf, Call.Classical, Call.undo, Call.Proper,
      Call.target, Call.controls]

/-! ### C47 -/

/-- **C47.** Only three things about an `x`, `cx` or `toffoli` call matter: the set of its controls, its
target and its increment modulo the dimension of the target. So the order and repetition of the
controls of a `toffoli` do not matter, `toffoli` with one control is `cx`, and without controls `x`. -/
theorem C47_controls_target_increment [Nontrivial R] {N : Numerics R} (hN : N.Sized) {B : Backend R}
    (hB : B.Lawful) {dims : List Nat} (hne : dims ≠ []) {init : List Int} {out : Option Output}
    (h : ValidStart (dims.map Int.ofNat) init) {pre post : List (Call R)} {a b : Call R}
    (hpre : ∀ k ∈ pre, k.Valid dims) (hpost : ∀ k ∈ post, k.Valid dims)
    (ha : a.Valid dims) (hb : b.Valid dims) (hca : a.Classical) (hcb : b.Classical)
    (hcs : ∀ c, c ∈ a.controls ↔ c ∈ b.controls) (ht : a.target = b.target)
    (hp : a.inc ≡ b.inc [ZMOD dims.getD a.target.toNat 0]) :
    script N B (.list (dims.map Int.ofNat)) init out (pre ++ a :: post ++ [.measureAll]) =
      script N B (.list (dims.map Int.ofNat)) init out (pre ++ b :: post ++ [.measureAll]) := by
  have e : ∀ x : Call R, pre ++ x :: post = pre ++ [x] ++ post := by simp
  rw [e, e]
  refine script_replace hN hB hne h hpre (by simpa using ha) (by simpa using hb) hpost ?_
  apply sameEffect_of_step hca hcb
  rw [classicalStep_eq dims hca, classicalStep_eq dims hcb, ← ht]
  refine controlled_congr (fun c => ?_) hp
  simp only [List.mem_map]
  constructor
  · rintro ⟨a, h1, h2⟩; exact ⟨a, (hcs a).1 h1, h2⟩
  · rintro ⟨a, h1, h2⟩; exact ⟨a, (hcs a).2 h1, h2⟩

example {B : Backend ℤ} (hB : B.Lawful) :
    script sampleN B (.list [2, 3, 2, 4]) [1, 2, 1] none
      ([.h 0 none] ++ .toffoli [2, 0, 2] 3 5 :: [.z 3 none] ++ [.measureAll]) =
    script sampleN B (.list [2, 3, 2, 4]) [1, 2, 1] none
      ([.h 0 none] ++ .toffoli [0, 2] 3 (-7) :: [.z 3 none] ++ [.measureAll]) := by
  apply C47_controls_target_increment sampleN_sized hB (dims := [2, 3, 2, 4]) (by simp)
  · exact validStart_of rfl
  all_goals simp [Call.Valid, InRange, DimOK, spanOf, Call.Classical, Call.controls, Call.target, Call.inc,
    Int.ModEq]

theorem withInc_facts {a : Call R} (hc : a.Classical) (p : Int) :
    (a.withInc p).Classical ∧ (a.withInc p).controls = a.controls ∧ (a.withInc p).target = a.target ∧
      (a.withInc p).inc = p := by
  cases a <;> first | exact ⟨trivial, rfl, rfl, rfl⟩ | exact hc.elim

theorem withInc_step {dims : List Nat} {a : Call R} (hc : a.Classical) (p : Int) :
    classicalStep dims (a.withInc p) =
      controlled dims (a.controls.map Int.toNat) a.target.toNat p := by
  obtain ⟨h1, h2, h3, h4⟩ := withInc_facts hc p
  rw [classicalStep_eq dims h1, h2, h3, h4]

/-- **C47.** Increments add up: a call made twice with the increments `p` and `p'` is one call with an
increment that is `p + p'` modulo the dimension of the target. -/
theorem C47_increments_add [Nontrivial R] {N : Numerics R} (hN : N.Sized) {B : Backend R} (hB : B.Lawful)
    {dims : List Nat} (hne : dims ≠ []) {init : List Int} {out : Option Output} (h : ValidStart (dims.map Int.ofNat) init)
    {pre post : List (Call R)} {a : Call R} {p p' p'' : Int} (hpre : ∀ k ∈ pre, k.Valid dims)
    (hpost : ∀ k ∈ post, k.Valid dims) (hc : a.Classical) (hpr : a.Proper)
    (h1 : (a.withInc p).Valid dims) (h2 : (a.withInc p').Valid dims) (h3 : (a.withInc p'').Valid dims)
    (hp : p + p' ≡ p'' [ZMOD dims.getD a.target.toNat 0]) :
    script N B (.list (dims.map Int.ofNat)) init out
        (pre ++ a.withInc p :: a.withInc p' :: post ++ [.measureAll]) =
      script N B (.list (dims.map Int.ofNat)) init out (pre ++ a.withInc p'' :: post ++ [.measureAll]) := by
  have e1 : pre ++ a.withInc p :: a.withInc p' :: post = pre ++ [a.withInc p, a.withInc p'] ++ post := by simp
  have e2 : pre ++ a.withInc p'' :: post = pre ++ [a.withInc p''] ++ post := by simp
  rw [e1, e2]
  refine script_replace hN hB hne h hpre ?_ (by simpa using h3) hpost ?_
  · intro k hk
    simp only [List.mem_cons, List.not_mem_nil, or_false] at hk
    rcases hk with rfl | rfl
    · exact h1
    · exact h2
  · intro ψ
    simp only [List.foldl_cons, List.foldl_nil]
    have f1 := withInc_facts hc p
    have hr := classical_regs h1 f1.1
    have ht := target_lt h1 f1.1
    rw [f1.2.1, f1.2.2.1] at hr
    rw [f1.2.2.1] at ht
    rw [meaning_classical N dims f1.1, meaning_classical N dims (withInc_facts hc p').1,
      meaning_classical N dims (withInc_facts hc p'').1, move_move (step_fits h1 f1.1),
      withInc_step hc, withInc_step hc, withInc_step hc]
    intro s _
    unfold move
    congr 2
    apply List.filter_congr
    intro u hu
    simp only [decide_eq_decide]
    rw [controlled_controlled (mem_states.1 hu) _ _ ht (fun hm => hpr ((mem_toNat hr.2 hr.1).1 hm)),
      controlled_congr (fun _ => Iff.rfl) hp]

example {B : Backend ℤ} (hB : B.Lawful) :
    script sampleN B (.list [2, 3, 5]) [1] none
      ([.h 0 none] ++ Call.withInc 4 (.cx 0 2 1) :: Call.withInc 3 (.cx 0 2 1) :: [.h 1 none] ++ [.measureAll]) =
    script sampleN B (.list [2, 3, 5]) [1] none
      ([.h 0 none] ++ Call.withInc 2 (.cx 0 2 1) :: [.h 1 none] ++ [.measureAll]) := by
  apply C47_increments_add sampleN_sized hB (dims := [2, 3, 5]) (by simp)
  · exact validStart_of rfl
  all_goals simp [Call.Valid, InRange, DimOK, Call.Classical, Call.Proper, Call.controls, Call.target,
    Call.withInc, Int.ModEq]

/-- **C47.** A call made `m` times in a row, such that `m` times its increment is a multiple of the dimension of the
target, might as well not have been made. -/
theorem C47_repetition [Nontrivial R] {N : Numerics R} (hN : N.Sized) {B : Backend R} (hB : B.Lawful)
    {dims : List Nat} (hne : dims ≠ []) {init : List Int} {out : Option Output} (h : ValidStart (dims.map Int.ofNat) init)
    {pre post : List (Call R)} {a : Call R} (m : Nat) (hpre : ∀ k ∈ pre, k.Valid dims)
    (hpost : ∀ k ∈ post, k.Valid dims) (ha : a.Valid dims) (hc : a.Classical) (hpr : a.Proper)
    (hm : (m * a.inc) ≡ 0 [ZMOD dims.getD a.target.toNat 0]) :
    script N B (.list (dims.map Int.ofNat)) init out (pre ++ List.replicate m a ++ post ++ [.measureAll]) =
      script N B (.list (dims.map Int.ofNat)) init out (pre ++ post ++ [.measureAll]) := by
  have hr : pre ++ post ++ [Call.measureAll] = pre ++ [] ++ post ++ [.measureAll] := by simp
  rw [hr]
  refine script_replace hN hB hne h hpre ?_ (by simp) hpost ?_
  · intro k hk
    rw [List.eq_of_mem_replicate hk]; exact ha
  · have hrg := classical_regs ha hc
    have ht := target_lt ha hc
    have key : ∀ (m : Nat) (ψ : State R), EqOn dims ((List.replicate m a).foldl (fun ψ k => meaning N dims k ψ) ψ)
        (move dims (controlled dims (a.controls.map Int.toNat) a.target.toNat (m * a.inc)) ψ) := by
      intro m
      induction m with
      | zero =>
        intro ψ s hs
        rw [show ((0 : Nat) : Int) * a.inc = 0 by simp]
        exact (move_id (fun s hs => controlled_zero hs ht (by simp)) ψ s hs).symm
      | succ m ih =>
        intro ψ s hs
        rw [List.replicate_succ, List.foldl_cons, ih _ s hs, meaning_classical N dims hc,
          move_move (step_fits ha hc), classicalStep_eq dims hc]
        unfold move
        congr 2
        apply List.filter_congr
        intro u hu
        simp only [decide_eq_decide]
        rw [controlled_controlled (mem_states.1 hu) _ _ ht (fun hm => hpr ((mem_toNat hrg.2 hrg.1).1 hm))]
        have : a.inc + (m : Int) * a.inc = ((m + 1 : Nat) : Int) * a.inc := by push_cast; ring
        rw [this]
    intro ψ s hs
    rw [key m ψ s hs]
    exact move_id (fun s hs => controlled_zero hs ht hm) ψ s hs

example {B : Backend ℤ} (hB : B.Lawful) :
    script sampleN B (.list [2, 3, 6]) [1] none
      ([.h 0 none] ++ List.replicate 3 (.cx 0 2 4) ++ [.h 1 none] ++ [.measureAll]) =
    script sampleN B (.list [2, 3, 6]) [1] none ([.h 0 none] ++ [.h 1 none] ++ [.measureAll]) := by
  apply C47_repetition sampleN_sized hB (dims := [2, 3, 6]) (by simp)
  · exact validStart_of rfl
  all_goals simp [Call.Valid, InRange, DimOK, Call.Classical, Call.Proper, Call.controls, Call.target,
    Call.inc, Int.ModEq]

end QuDiet
