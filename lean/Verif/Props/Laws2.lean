import Verif.Props.Laws
import Mathlib.Algebra.BigOperators.Ring.List
import Mathlib.Analysis.Complex.Basic
import Verif.Exact

/-! # C48 to C50: what commutes, and what a single call does to the outcomes -/

namespace QuDiet
open Spec

variable {R : Type} [CommRing R] [StarRing R] [DecidableEq R] [UnitaryCheck R]

/-! ### C48 -/

omit [CommRing R] [StarRing R] [DecidableEq R] [UnitaryCheck R] in
theorem getD_controlled_ne {dims cs s : List Nat} {t r : Nat} {p : Int} (h : t ≠ r) :
    (controlled dims cs t p s).getD r 0 = s.getD r 0 := by
  unfold controlled
  split
  · exact getD_set_ne h
  · rfl

omit [CommRing R] [StarRing R] [DecidableEq R] [UnitaryCheck R] in
theorem atTop_controlled {dims cs cs' s : List Nat} {t : Nat} {p : Int} (h : t ∉ cs') :
    (∀ c ∈ cs', atTop dims c (controlled dims cs t p s)) ↔ ∀ c ∈ cs', atTop dims c s := by
  unfold atTop
  constructor <;> intro hc c hm <;> have := hc c hm <;>
    rw [getD_controlled_ne (by rintro rfl; exact h hm)] at * <;> exact this

omit [CommRing R] [StarRing R] [DecidableEq R] [UnitaryCheck R] in
theorem bump_comm {dims s : List Nat} (hs : Fits dims s) {q q' : Nat} (hq : q < dims.length) (p p' : Int) :
    bump dims q p (bump dims q' p' s) = bump dims q' p' (bump dims q p s) := by
  by_cases h : q = q'
  · subst h
    rw [bump_bump hs q hq, bump_bump hs q hq, Int.add_comm]
  · unfold bump
    rw [getD_set_ne (Ne.symm h), getD_set_ne h, List.set_comm _ _ (Ne.symm h)]

omit [CommRing R] [StarRing R] [DecidableEq R] [UnitaryCheck R] in
theorem controlled_comm {dims s cs cs' : List Nat} (hs : Fits dims s) {t t' : Nat} (ht : t < dims.length)
    (h : t ∉ cs') (h' : t' ∉ cs) (p p' : Int) :
    controlled dims cs t p (controlled dims cs' t' p' s) =
      controlled dims cs' t' p' (controlled dims cs t p s) := by
  have e1 := @atTop_controlled dims cs' cs s t' p' h'
  have e2 := @atTop_controlled dims cs cs' s t p h
  by_cases h1 : ∀ c ∈ cs, atTop dims c s <;> by_cases h2 : ∀ c ∈ cs', atTop dims c s
  · have f1 : controlled dims cs t p s = bump dims t p s := if_pos h1
    have f2 : controlled dims cs' t' p' s = bump dims t' p' s := if_pos h2
    rw [controlled, if_pos (e1.2 h1), controlled, if_pos h2, controlled, if_pos (e2.2 h2), f1, bump_comm hs ht]
  · have f2 : controlled dims cs' t' p' s = s := if_neg h2
    rw [f2]
    exact (if_neg (fun hh => h2 (e2.1 hh))).symm
  · have f1 : controlled dims cs t p s = s := if_neg h1
    rw [f1]
    exact if_neg (fun hh => h1 (e1.1 hh))
  · have f1 : controlled dims cs t p s = s := if_neg h1
    have f2 : controlled dims cs' t' p' s = s := if_neg h2
    rw [f2, f1, f2]

/-- **C48.** Two adjacent `x`, `cx` or `toffoli` calls may be exchanged if neither adds to a control of
the other. They may have controls or the target in common. -/
theorem C48_increments_commute [Nontrivial R] {N : Numerics R} (hN : N.Sized) {B : Backend R}
    (hB : B.Lawful) {dims : List Nat} (hne : dims ≠ []) {init : List Int} {out : Option Output}
    (h : ValidStart (dims.map Int.ofNat) init) {pre post : List (Call R)} {a b : Call R}
    (hpre : ∀ k ∈ pre, k.Valid dims) (hpost : ∀ k ∈ post, k.Valid dims)
    (ha : a.Valid dims) (hb : b.Valid dims) (hca : a.Classical) (hcb : b.Classical)
    (hab : a.target ∉ b.controls) (hba : b.target ∉ a.controls) :
    script N B (.list (dims.map Int.ofNat)) init out (pre ++ a :: b :: post ++ [.measureAll]) =
      script N B (.list (dims.map Int.ofNat)) init out (pre ++ b :: a :: post ++ [.measureAll]) := by
  have e : ∀ x y : Call R, pre ++ x :: y :: post = pre ++ [x, y] ++ post := by simp
  rw [e, e]
  refine script_replace hN hB hne h hpre (by simpa using ⟨ha, hb⟩) (by simpa using ⟨hb, ha⟩) hpost ?_
  intro ψ s _
  have ra := classical_regs ha hca
  have rb := classical_regs hb hcb
  simp only [List.foldl_cons, List.foldl_nil]
  rw [meaning_classical N dims hca, meaning_classical N dims hcb, meaning_classical N dims hcb,
    meaning_classical N dims hca, move_move (step_fits ha hca), move_move (step_fits hb hcb),
    classicalStep_eq dims hca, classicalStep_eq dims hcb]
  unfold move
  congr 2
  apply List.filter_congr
  intro u hu
  simp only [decide_eq_decide]
  rw [controlled_comm (mem_states.1 hu) (target_lt hb hcb)
    (fun hm => hba ((mem_toNat ra.2 rb.1).1 hm)) (fun hm => hab ((mem_toNat rb.2 ra.1).1 hm))]

example {B : Backend ℤ} (hB : B.Lawful) :
    script sampleN B (.list [2, 3, 4]) [1, 2] none
      ([.h 0 none] ++ .toffoli [0, 1] 2 1 :: .cx 1 2 3 :: [.h 1 none] ++ [.measureAll]) =
    script sampleN B (.list [2, 3, 4]) [1, 2] none
      ([.h 0 none] ++ .cx 1 2 3 :: .toffoli [0, 1] 2 1 :: [.h 1 none] ++ [.measureAll]) := by
  apply C48_increments_commute sampleN_sized hB (dims := [2, 3, 4]) (by simp)
  · exact validStart_of rfl
  all_goals simp [Call.Valid, InRange, DimOK, spanOf, Call.Classical, Call.controls, Call.target]

/-- The factor by which a diagonal call multiplies the amplitude of a basis state in which its register
has level `l`. -/
def Call.factor (N : Numerics R) (dims : List Nat) : Call R → Nat → R
  | .z q _, l => (N.roots (dims.getD q.toNat 0)).getD l 0
  | .gate U _ _, l => U.e l l
  | _, _ => 0

/-- A call on one register with a diagonal matrix: `z`, or a custom gate that is diagonal. -/
def Call.Diagonal : Call R → Prop
  | .z .. => True
  | .gate U (.int _) _ => ∀ i j, i < U.rows → j < U.cols → i ≠ j → U.e i j = 0
  | _ => False

/-- The register of a diagonal call. -/
def Call.reg : Call R → Int
  | .z q _ => q
  | .gate _ (.int q) _ => q
  | _ => 0

omit [StarRing R] [DecidableEq R] [UnitaryCheck R] in
theorem onReg_diag {dims s : List Nat} (hs : Fits dims s) {q : Nat} (hq : q < dims.length) {G : Nat → Nat → R}
    (hG : ∀ i j, i < dims.getD q 0 → j < dims.getD q 0 → i ≠ j → G i j = 0) (ψ : State R) :
    onReg (dims.getD q 0) q G ψ s = G (s.getD q 0) (s.getD q 0) * ψ s := by
  have hl : q < s.length := by rw [hs.1]; exact hq
  have hlt := fits_getD_lt hs q hq
  unfold onReg
  have : ∀ k ∈ List.range (dims.getD q 0), G (s.getD q 0) k * ψ (s.set q k)
      = if s.getD q 0 = k then G (s.getD q 0) k * ψ (s.set q k) else 0 := by
    intro k hk
    split
    · rfl
    · rename_i h
      rw [hG _ _ hlt (List.mem_range.1 hk) h, zero_mul]
  rw [map_congr_sum this, sum_ite_eq _ List.nodup_range (s.getD q 0) (List.mem_range.2 hlt)
    (fun k => G (s.getD q 0) k * ψ (s.set q k)), set_getD_self hl]

theorem diagonal_reg {dims : List Nat} {k : Call R} (hv : k.Valid dims) (hd : k.Diagonal) :
    InRange dims k.reg := by
  cases k with
  | z q k => exact hv.1
  | gate U q k =>
    cases q with
    | int q => exact hv.1
    | list qs => exact hd.elim
  | x => exact hd.elim
  | cx => exact hd.elim
  | toffoli => exact hd.elim
  | h => exact hd.elim
  | measure => exact hd.elim
  | measureAll => exact hd.elim

theorem meaning_diagonal (N : Numerics R) {dims : List Nat} {k : Call R} (hv : k.Valid dims) (hd : k.Diagonal)
    (ψ : State R) {s : List Nat} (hs : Fits dims s) :
    meaning N dims k ψ s = k.factor N dims (s.getD k.reg.toNat 0) * ψ s := by
  have hr := diagonal_reg hv hd
  have hq : k.reg.toNat < dims.length := by have := hr.1; have := hr.2; omega
  cases k with
  | z q k =>
    refine (onReg_diag hs hq (fun i j _ _ h => ?_) ψ).trans ?_
    · unfold phases; rw [if_neg h]
    · unfold phases; rw [if_pos rfl]; rfl
  | gate U q k =>
    cases q with
    | int q =>
      refine onReg_diag hs hq (fun i j hi hj h => hd i j ?_ ?_ h) ψ
      · rw [hv.2.2.2.1]; exact hi
      · rw [hv.2.2.2.2]; exact hj
    | list qs => exact hd.elim
  | x => exact hd.elim
  | cx => exact hd.elim
  | toffoli => exact hd.elim
  | h => exact hd.elim
  | measure => exact hd.elim
  | measureAll => exact hd.elim

/-- **C48.** A diagonal call commutes with every `x`, `cx` and `toffoli` whose target it is not on; it may
be on one of their controls. -/
theorem C48_diagonal_commutes_with_controls [Nontrivial R] {N : Numerics R} (hN : N.Sized) {B : Backend R}
    (hB : B.Lawful) {dims : List Nat} (hne : dims ≠ []) {init : List Int} {out : Option Output}
    (h : ValidStart (dims.map Int.ofNat) init) {pre post : List (Call R)} {a b : Call R}
    (hpre : ∀ k ∈ pre, k.Valid dims) (hpost : ∀ k ∈ post, k.Valid dims)
    (ha : a.Valid dims) (hb : b.Valid dims) (hda : a.Diagonal) (hcb : b.Classical) (hab : a.reg ≠ b.target) :
    script N B (.list (dims.map Int.ofNat)) init out (pre ++ a :: b :: post ++ [.measureAll]) =
      script N B (.list (dims.map Int.ofNat)) init out (pre ++ b :: a :: post ++ [.measureAll]) := by
  have e : ∀ x y : Call R, pre ++ x :: y :: post = pre ++ [x, y] ++ post := by simp
  rw [e, e]
  refine script_replace hN hB hne h hpre (by simpa using ⟨ha, hb⟩) (by simpa using ⟨hb, ha⟩) hpost ?_
  intro ψ s hs
  have ra := diagonal_reg ha hda
  have rb := classical_regs hb hcb
  have hn : b.target.toNat ≠ a.reg.toNat := by have := ra.1; have := rb.1.1; omega
  simp only [List.foldl_cons, List.foldl_nil]
  rw [meaning_diagonal N ha hda _ hs, meaning_classical N dims hcb, meaning_classical N dims hcb,
    classicalStep_eq dims hcb]
  unfold move
  rw [← List.sum_map_mul_left]
  apply map_congr_sum
  intro u hu
  obtain ⟨h1, h2⟩ := List.mem_filter.1 hu
  rw [meaning_diagonal N ha hda _ (mem_states.1 h1)]
  have h3 : controlled dims (b.controls.map Int.toNat) b.target.toNat b.inc u = s := by simpa using h2
  rw [← h3, getD_controlled_ne hn]

/-- **C48.** Two diagonal calls commute, also on the same register. -/
theorem C48_diagonals_commute [Nontrivial R] {N : Numerics R} (hN : N.Sized) {B : Backend R}
    (hB : B.Lawful) {dims : List Nat} (hne : dims ≠ []) {init : List Int} {out : Option Output}
    (h : ValidStart (dims.map Int.ofNat) init) {pre post : List (Call R)} {a b : Call R}
    (hpre : ∀ k ∈ pre, k.Valid dims) (hpost : ∀ k ∈ post, k.Valid dims)
    (ha : a.Valid dims) (hb : b.Valid dims) (hda : a.Diagonal) (hdb : b.Diagonal) :
    script N B (.list (dims.map Int.ofNat)) init out (pre ++ a :: b :: post ++ [.measureAll]) =
      script N B (.list (dims.map Int.ofNat)) init out (pre ++ b :: a :: post ++ [.measureAll]) := by
  have e : ∀ x y : Call R, pre ++ x :: y :: post = pre ++ [x, y] ++ post := by simp
  rw [e, e]
  refine script_replace hN hB hne h hpre (by simpa using ⟨ha, hb⟩) (by simpa using ⟨hb, ha⟩) hpost ?_
  intro ψ s hs
  simp only [List.foldl_cons, List.foldl_nil]
  rw [meaning_diagonal N ha hda _ hs, meaning_diagonal N hb hdb _ hs, meaning_diagonal N hb hdb _ hs,
    meaning_diagonal N ha hda _ hs, mul_left_comm]

/-- The diagonal matrix with the entries 1, -1, 1. -/
def signs : Mat ℤ := { rows := 3, cols := 3, e := fun i j => if i = j then (if i = 1 then -1 else 1) else 0 }

example {B : Backend ℤ} (hB : B.Lawful) :
    script sampleN B (.list [3, 2, 3]) [2] none
      ([.h 0 none] ++ .gate signs (.int 0) none :: .cx 0 2 1 :: [.h 1 none] ++ [.measureAll]) =
    script sampleN B (.list [3, 2, 3]) [2] none
      ([.h 0 none] ++ .cx 0 2 1 :: .gate signs (.int 0) none :: [.h 1 none] ++ [.measureAll]) := by
  apply C48_diagonal_commutes_with_controls sampleN_sized hB (dims := [3, 2, 3]) (by simp)
  · exact validStart_of rfl
  · simp [Call.Valid, InRange, DimOK]
  · simp [Call.Valid, InRange, DimOK]
  · refine ⟨by simp [InRange], .inl rfl, by decide, rfl, rfl⟩
  · simp [Call.Valid, InRange]
  · intro i j _ _ h
    simp [signs, h]
  · trivial
  · simp [Call.reg, Call.target]

example {B : Backend ℤ} (hB : B.Lawful) :
    script sampleN B (.list [3, 2]) [2] none
      ([.h 0 none] ++ .gate signs (.int 0) none :: .z 0 none :: [.h 1 none] ++ [.measureAll]) =
    script sampleN B (.list [3, 2]) [2] none
      ([.h 0 none] ++ .z 0 none :: .gate signs (.int 0) none :: [.h 1 none] ++ [.measureAll]) := by
  apply C48_diagonals_commute sampleN_sized hB (dims := [3, 2]) (by simp)
  · exact validStart_of rfl
  · simp [Call.Valid, InRange, DimOK]
  · simp [Call.Valid, InRange, DimOK]
  · refine ⟨by simp [InRange], .inl rfl, by decide, rfl, rfl⟩
  · simp [Call.Valid, InRange, DimOK]
  · intro i j _ _ h
    simp [signs, h]
  · trivial

/-! ### C49 -/

/-- After the calls `ks` and `measure_all()`, `run()` lists exactly the levels and amplitudes `es`, in this order: the
levels as tuples with `OutputType.state`, and as labels when printed. -/
def Lists (N : Numerics R) (B : Backend R) (dims : List Nat) (init : List Int) (ks : List (Call R))
    (es : List (List Nat × R)) : Prop :=
  script N B (.list (dims.map Int.ofNat)) init (some ⟨dims, .state, .amplitude⟩) (ks ++ [.measureAll]) =
      .ok (es.map fun e => (.tup e.1, e.2)) ∧
    script N B (.list (dims.map Int.ofNat)) init none (ks ++ [.measureAll]) =
      .ok (es.map fun e => (.str (label e.1), e.2))

theorem lists_valid [Nontrivial R] {N : Numerics R} (hN : N.Sized) {B : Backend R} (hB : B.Lawful) {dims : List Nat}
    (hne : dims ≠ []) {init : List Int} (h : ValidStart (dims.map Int.ofNat) init) {ks : List (Call R)}
    (hks : ∀ k ∈ ks, k.Valid dims) :
    Lists N B dims init ks (outcome dims (ks.foldl (fun ψ k => meaning N dims k ψ) (basis (startLevels dims init)))) :=
  ⟨script_valid hN hB hne h (by simp) hks [], C01_run_sequential hN hB hne h hks⟩

omit [StarRing R] in
theorem outcome_move_perm {dims : List Nat} {f : List Nat → List Nat}
    (hf : ∀ s, Fits dims s → Fits dims (f s))
    (hinj : ∀ s t, Fits dims s → Fits dims t → f t = f s → t = s) (ψ : State R) :
    (outcome dims (move dims f ψ)).Perm ((outcome dims ψ).map fun e => (f e.1, e.2)) := by
  unfold outcome
  have h1 := ((perm_map_states hf hinj).filter fun s => move dims f ψ s ≠ 0).map
    fun s => (s, move dims f ψ s)
  refine h1.symm.trans ?_
  rw [List.filter_map, List.map_map, List.map_map]
  have e : ∀ t ∈ states dims, move dims f ψ (f t) = ψ t := fun t ht =>
    move_apply (mem_states.1 ht) (fun u hu => hinj t u (mem_states.1 ht) hu) ψ
  have e1 : (states dims).filter ((fun s => decide (move dims f ψ s ≠ 0)) ∘ f)
      = (states dims).filter fun s => ψ s ≠ 0 := by
    apply List.filter_congr
    intro t ht
    simp only [Function.comp_apply, e t ht]
  rw [e1]
  apply List.Perm.of_eq
  apply List.map_congr_left
  intro t ht
  simp only [Function.comp_apply, e t (List.mem_filter.1 ht).1]

omit [StarRing R] in
theorem outcome_fits {dims : List Nat} {ψ : State R} {e : List Nat × R} (h : e ∈ outcome dims ψ) :
    Fits dims e.1 ∧ e.2 = ψ e.1 ∧ ψ e.1 ≠ 0 := by
  obtain ⟨s, hs, rfl⟩ := List.mem_map.1 h
  obtain ⟨h1, h2⟩ := List.mem_filter.1 hs
  exact ⟨mem_states.1 h1, rfl, by simpa using h2⟩

/-- **C49.** An `x`, `cx` (on two registers) or `toffoli` call at the end of a circuit only relabels the
outcomes: each basis state is moved by the increment and keeps its amplitude. In particular the
number of outcomes stays the same. -/
theorem C49_increments_relabel [Nontrivial R] {N : Numerics R} (hN : N.Sized) {B : Backend R}
    (hB : B.Lawful) {dims : List Nat} (hne : dims ≠ []) {init : List Int}
    (h : ValidStart (dims.map Int.ofNat) init) {ks : List (Call R)} {a : Call R}
    (hks : ∀ k ∈ ks, k.Valid dims) (ha : a.Valid dims) (hc : a.Classical) (hp : a.Proper) :
    ∃ es es' : List (List Nat × R), (∀ e ∈ es, Fits dims e.1) ∧
      Lists N B dims init ks es ∧ Lists N B dims init (ks ++ [a]) es' ∧
      es'.Perm (es.map fun e =>
        (controlled dims (a.controls.map Int.toNat) a.target.toNat a.inc e.1, e.2)) := by
  refine ⟨outcome dims (ks.foldl (fun ψ k => meaning N dims k ψ) (basis (startLevels dims init))), _,
    fun e he => (outcome_fits he).1, lists_valid hN hB hne h hks, lists_valid hN hB hne h (ks := ks ++ [a]) ?_, ?_⟩
  · intro k hk
    rcases List.mem_append.1 hk with hk | hk
    · exact hks k hk
    · rw [List.mem_singleton] at hk
      rw [hk]; exact ha
  · rw [List.foldl_append, List.foldl_cons, List.foldl_nil, meaning_classical N dims hc,
      classicalStep_eq dims hc]
    have hr := classical_regs ha hc
    apply outcome_move_perm
    · exact fun s hs => fits_controlled hs _ _ (target_lt ha hc) _
    · exact fun s t hs ht e => controlled_inj hs ht (target_lt ha hc)
        (fun hm => hp ((mem_toNat hr.2 hr.1).1 hm)) e

example {B : Backend ℤ} (hB : B.Lawful) : ∃ es es' : List (List Nat × ℤ),
    Lists sampleN B [2, 3] [1] [.h 0 none] es ∧ Lists sampleN B [2, 3] [1] [.h 0 none, .cx 0 1 2] es' ∧
    es'.length = es.length := by
  obtain ⟨es, es', _, h1, h2, h3⟩ := C49_increments_relabel sampleN_sized hB (dims := [2, 3]) (by simp)
    (init := [1]) (validStart_of rfl) (ks := [.h 0 none]) (a := .cx 0 1 2)
    (by simp [Call.Valid, InRange, DimOK]) (by simp [Call.Valid, InRange]) trivial
    (by simp [Call.Proper, Call.target, Call.controls])
  exact ⟨es, es', h1, h2, by simpa using h3.length_eq⟩

/-- **C49.** A diagonal call at the end of a circuit keeps the outcomes and their order and multiplies
each amplitude by the factor for the level of its register (if the factors are units, as phases are). -/
theorem C49_diagonal_multiplies [Nontrivial R] {N : Numerics R} (hN : N.Sized) {B : Backend R}
    (hB : B.Lawful) {dims : List Nat} (hne : dims ≠ []) {init : List Int}
    (h : ValidStart (dims.map Int.ofNat) init) {ks : List (Call R)} {a : Call R}
    (hks : ∀ k ∈ ks, k.Valid dims) (ha : a.Valid dims) (hd : a.Diagonal)
    (hu : ∀ l < dims.getD a.reg.toNat 0, IsUnit (a.factor N dims l)) :
    ∃ es : List (List Nat × R), (∀ e ∈ es, Fits dims e.1) ∧
      Lists N B dims init ks es ∧
      Lists N B dims init (ks ++ [a]) (es.map fun e => (e.1, a.factor N dims (e.1.getD a.reg.toNat 0) * e.2)) := by
  refine ⟨outcome dims (ks.foldl (fun ψ k => meaning N dims k ψ) (basis (startLevels dims init))),
    fun e he => (outcome_fits he).1, lists_valid hN hB hne h hks, ?_⟩
  have key := lists_valid hN hB hne h (ks := ks ++ [a]) (by
    intro k hk
    rcases List.mem_append.1 hk with hk | hk
    · exact hks k hk
    · rw [List.mem_singleton] at hk
      rw [hk]; exact ha)
  convert key using 1
  symm
  rw [List.foldl_append, List.foldl_cons, List.foldl_nil]
  generalize ks.foldl (fun ψ k => meaning N dims k ψ) (basis (startLevels dims init)) = ψ
  have hr := diagonal_reg ha hd
  have hq : a.reg.toNat < dims.length := by have := hr.1; have := hr.2; omega
  unfold outcome
  rw [List.map_map]
  have e1 : (states dims).filter (fun s => decide (meaning N dims a ψ s ≠ 0))
      = (states dims).filter fun s => ψ s ≠ 0 := by
    apply List.filter_congr
    intro s hs
    have hs := mem_states.1 hs
    rw [meaning_diagonal N ha hd ψ hs, decide_eq_decide]
    exact not_congr ((hu _ (fits_getD_lt hs _ hq)).mul_right_eq_zero)
  rw [e1]
  apply List.map_congr_left
  intro s hs
  simp only [Function.comp_apply]
  rw [meaning_diagonal N ha hd ψ (mem_states.1 (List.mem_filter.1 hs).1)]

/-- **C49** for `z` and exact arithmetic: the factors are the roots of unity, of modulus 1. -/
theorem C49_z_changes_phases_only {N : Numerics ℂ} (hN : N.Exact) {B : Backend ℂ}
    (hB : B.Lawful) {dims : List Nat} (hne : dims ≠ []) {init : List Int}
    (h : ValidStart (dims.map Int.ofNat) init) {ks : List (Call ℂ)} {q : Nat} (hq : q < dims.length)
    (hks : ∀ k ∈ ks, k.Valid dims) :
    ∃ (es : List (List Nat × ℂ)) (w : Nat → ℂ),
      (∀ l < dims.getD q 0, w l ^ dims.getD q 0 = 1 ∧ ‖w l‖ = 1) ∧
      Lists N B dims init ks es ∧
      Lists N B dims init (ks ++ [.z q none]) (es.map fun e => (e.1, w (e.1.getD q 0) * e.2)) := by
  have hv : (Call.z (R := ℂ) q none).Valid dims := ⟨⟨by simp, by simpa using hq⟩, .inl rfl⟩
  have hd2 : ∀ l < dims.getD q 0, (N.roots (dims.getD q 0)).getD l 0 ^ dims.getD q 0 = 1 :=
    fun l hl => hN.root hl
  have hne0 : ∀ l < dims.getD q 0, (N.roots (dims.getD q 0)).getD l 0 ≠ 0 := by
    intro l hl e
    have := hd2 l hl
    rw [e, zero_pow (by omega)] at this
    exact zero_ne_one this
  obtain ⟨es, _, h1, h2⟩ := C49_diagonal_multiplies hN.sized hB hne h (a := .z q none) hks hv trivial
    (by intro l hl; simp only [Call.reg, Int.toNat_natCast, Call.factor] at hl ⊢; exact (hne0 l hl).isUnit)
  refine ⟨es, fun l => (N.roots (dims.getD q 0)).getD l 0, fun l hl => ⟨hd2 l hl, ?_⟩, h1, ?_⟩
  · exact Complex.norm_eq_one_of_pow_eq_one (hd2 l hl) (by omega)
  · simpa only [Call.reg, Call.factor, Int.toNat_natCast] using h2

/-- A qutrit in superposition, followed by `z`. -/
example {B : Backend ℂ} (hB : B.Lawful) : ∃ (es : List (List Nat × ℂ)) (w : Nat → ℂ),
    (∀ l < 3, w l ^ 3 = 1 ∧ ‖w l‖ = 1) ∧
    Lists standardN B [2, 3] [1] [.h 1 none] es ∧
    Lists standardN B [2, 3] [1] [.h 1 none, .z 1 none] (es.map fun e => (e.1, w (e.1.getD 1 0) * e.2)) :=
  C49_z_changes_phases_only standardN_exact hB (dims := [2, 3]) (by simp) (init := [1]) (validStart_of rfl)
    (ks := [.h 1 none]) (q := 1) (by simp) (by simp [Call.Valid, InRange, DimOK])

/-! ### C50 -/

/-- `ψ` is zero except where register `r` has level `l`. -/
def Pinned (dims : List Nat) (r l : Nat) (ψ : State R) : Prop :=
  ∀ s, Fits dims s → ψ s ≠ 0 → s.getD r 0 = l

theorem pinned_fold {N : Numerics R} {dims : List Nat} {r l : Nat} (ks : List (Call R))
    (hv : ∀ k ∈ ks, k.Valid dims) (ht : ∀ k ∈ ks, ¬ k.touches r) {ψ : State R} (h : Pinned dims r l ψ) :
    Pinned dims r l (ks.foldl (fun ψ k => meaning N dims k ψ) ψ) := by
  induction ks generalizing ψ with
  | nil => exact h
  | cons k ks ih =>
    apply ih (fun k hk => hv k (by simp [hk])) (fun k hk => ht k (by simp [hk]))
    obtain ⟨ι, m, c, g, f1, f2, f3, f4⟩ := meaning_local N (hv k (by simp))
    intro s hs hne
    change meaning N dims k ψ s ≠ 0 at hne
    rw [f1 ψ s hs] at hne
    by_contra hl
    apply hne
    apply List.sum_eq_zero
    intro x hx
    obtain ⟨i, hi, rfl⟩ := List.mem_map.1 hx
    have h4 := f4 i hi s hs r (ht k (by simp))
    have : ψ (g i s) = 0 := by
      by_contra h0
      exact hl (h4 ▸ h _ (f2 i hi s hs) h0)
    rw [this, mul_zero]

/-- **C50.** In every outcome of `run()`, a register that no call touches is in its initial level. -/
theorem C50_untouched_keeps_level [Nontrivial R] {N : Numerics R} (hN : N.Sized) {B : Backend R}
    (hB : B.Lawful) {dims : List Nat} (hne : dims ≠ []) {init : List Int}
    (h : ValidStart (dims.map Int.ofNat) init) {ks : List (Call R)} (hks : ∀ k ∈ ks, k.Valid dims) :
    ∃ es : List (List Nat × R), Lists N B dims init ks es ∧
      ∀ e ∈ es, Fits dims e.1 ∧ ∀ r < dims.length, (∀ k ∈ ks, ¬ k.touches r) →
        (e.1.getD r 0 : Int) = init.getD r 0 % (dims.getD r 0 : Int) := by
  refine ⟨outcome dims (ks.foldl (fun ψ k => meaning N dims k ψ) (basis (startLevels dims init))),
    lists_valid hN hB hne h hks, ?_⟩
  intro e he
  obtain ⟨h1, _, h3⟩ := outcome_fits he
  refine ⟨h1, fun r hr ht => ?_⟩
  have hp : Pinned dims r ((startLevels dims init).getD r 0) (basis (startLevels dims init) : State R) := by
    intro s _ hs
    unfold basis at hs
    by_cases e : s = startLevels dims init
    · rw [e]
    · rw [if_neg e] at hs; exact absurd rfl hs
  rw [pinned_fold (N := N) ks hks ht hp e.1 h1 h3]
  have hd := (validStart_getD h hr).1
  simp only [startLevels, List.getD_eq_getElem?_getD, List.getElem?_map, List.getElem?_range hr]
  simp only [Option.map_some, Option.getD_some]
  rw [Int.toNat_of_nonneg]
  apply Int.emod_nonneg
  simp only [List.getD_eq_getElem?_getD] at hd
  omega

example {B : Backend ℤ} (hB : B.Lawful) : ∃ es : List (List Nat × ℤ),
    Lists sampleN B [2, 3, 4] [1, -1, 3] [.h 0 none, .cx 0 2 1] es ∧ ∀ e ∈ es, e.1.getD 1 0 = 2 := by
  obtain ⟨es, h1, h2⟩ := C50_untouched_keeps_level sampleN_sized hB (dims := [2, 3, 4]) (by simp)
    (init := [1, -1, 3]) (validStart_of rfl) (ks := [.h 0 none, .cx 0 2 1])
    (by simp [Call.Valid, InRange, DimOK])
  refine ⟨es, h1, fun e he => ?_⟩
  have := (h2 e he).2 1 (by simp) (by simp [Call.touches])
  have h3 : ((e.1.getD 1 0 : Nat) : Int) = 2 := this
  exact_mod_cast h3

end QuDiet
