import Verif.Props.Laws
import Mathlib.Algebra.BigOperators.Ring.List
import Mathlib.Tactic.Ring

/-! # Calls on a part of the registers

A call on the first (or the last) registers only acts on them, whatever the others do. -/

namespace QuDiet
open Spec

/-- The call with every register number moved up by `n`. -/
def Call.shift {R : Type} (n : Nat) : Call R → Call R
  | .h q k => .h (q + n) k
  | .x q k p => .x (q + n) k p
  | .z q k => .z (q + n) k
  | .cx c t p => .cx (c + n) (t + n) p
  | .toffoli cs t p => .toffoli (cs.map (· + (n : Int))) (t + n) p
  | .gate U (.int q) k => .gate U (.int (q + n)) k
  | .gate U (.list qs) k => .gate U (.list (qs.map (· + (n : Int)))) k
  | .measure q => .measure (q + n)
  | .measureAll => .measureAll

section
variable {R : Type} [CommRing R]

theorem getD_left {a b : List Nat} {i : Nat} (h : i < a.length) : (a ++ b).getD i 0 = a.getD i 0 := by
  rw [List.getD_eq_getElem?_getD, List.getElem?_append_left h, List.getD_eq_getElem?_getD]

theorem getD_right {a b : List Nat} {i : Nat} : (a ++ b).getD (i + a.length) 0 = b.getD i 0 := by
  rw [List.getD_eq_getElem?_getD, List.getElem?_append_right (by omega), List.getD_eq_getElem?_getD,
    Nat.add_sub_cancel]

theorem set_left {a b : List Nat} {i k : Nat} (h : i < a.length) : (a ++ b).set i k = a.set i k ++ b := by
  rw [List.set_append, if_pos h]

theorem set_right {a b : List Nat} {i k : Nat} : (a ++ b).set (i + a.length) k = a ++ b.set i k := by
  rw [List.set_append, if_neg (by omega), Nat.add_sub_cancel]

/-! ### One register -/

theorem onReg_left {s1 s2 : List Nat} {q : Nat} (h : q < s1.length) (d : Nat) (G : Nat → Nat → R) (ψ : State R) :
    onReg d q G ψ (s1 ++ s2) = onReg d q G (fun u => ψ (u ++ s2)) s1 := by
  unfold onReg
  simp only [getD_left h, set_left h]

theorem onReg_right {s1 s2 : List Nat} {q : Nat} (d : Nat) (G : Nat → Nat → R) (ψ : State R) :
    onReg d (q + s1.length) G ψ (s1 ++ s2) = onReg d q G (fun u => ψ (s1 ++ u)) s2 := by
  unfold onReg
  simp only [getD_right, set_right]

/-! ### Controlled increments -/

theorem bump_left {d1 d2 u s2 : List Nat} (hu : u.length = d1.length) {t : Nat} (ht : t < d1.length) (p : Int) :
    bump (d1 ++ d2) t p (u ++ s2) = bump d1 t p u ++ s2 := by
  unfold bump
  rw [getD_left (by omega), getD_left ht, set_left (by omega)]

theorem bump_right {d1 d2 s1 u : List Nat} (hu : s1.length = d1.length) {t : Nat} (p : Int) :
    bump (d1 ++ d2) (t + d1.length) p (s1 ++ u) = s1 ++ bump d2 t p u := by
  unfold bump
  rw [getD_right, ← hu, getD_right, set_right]

theorem controlled_left {d1 d2 u s2 : List Nat} (hu : u.length = d1.length) {cs : List Nat} {t : Nat}
    (hcs : ∀ c ∈ cs, c < d1.length) (ht : t < d1.length) (p : Int) :
    controlled (d1 ++ d2) cs t p (u ++ s2) = controlled d1 cs t p u ++ s2 := by
  have : (∀ c ∈ cs, atTop (d1 ++ d2) c (u ++ s2)) ↔ ∀ c ∈ cs, atTop d1 c u := by
    unfold atTop
    constructor <;> intro h c hc <;> have := h c hc <;> have := hcs c hc <;>
      rw [getD_left (by omega), getD_left (by omega)] at * <;> assumption
  unfold controlled
  by_cases h : ∀ c ∈ cs, atTop d1 c u
  · rw [if_pos (this.2 h), if_pos h, bump_left hu ht]
  · rw [if_neg (fun h' => h (this.1 h')), if_neg h]

theorem controlled_right {d1 d2 s1 u : List Nat} (hu : s1.length = d1.length) {cs : List Nat} {t : Nat} (p : Int) :
    controlled (d1 ++ d2) (cs.map (· + d1.length)) (t + d1.length) p (s1 ++ u) =
      s1 ++ controlled d2 cs t p u := by
  have : (∀ c ∈ cs.map (· + d1.length), atTop (d1 ++ d2) c (s1 ++ u)) ↔ ∀ c ∈ cs, atTop d2 c u := by
    rw [List.forall_mem_map]
    unfold atTop
    have e1 : ∀ c, (d1 ++ d2).getD (c + d1.length) 0 = d2.getD c 0 := fun c => getD_right
    have e2 : ∀ c, (s1 ++ u).getD (c + d1.length) 0 = u.getD c 0 := fun c => by rw [← hu]; exact getD_right
    simp only [e1, e2]
  unfold controlled
  by_cases h : ∀ c ∈ cs, atTop d2 c u
  · rw [if_pos (this.2 h), if_pos h, bump_right hu]
  · rw [if_neg (fun h' => h (this.1 h')), if_neg h]

theorem move_left {d1 d2 s1 s2 : List Nat} (h1 : Fits d1 s1) (h2 : Fits d2 s2) {cs : List Nat} {t : Nat}
    (hcs : ∀ c ∈ cs, c < d1.length) (ht : t < d1.length) (p : Int) (ψ : State R) :
    move (d1 ++ d2) (controlled (d1 ++ d2) cs t p) ψ (s1 ++ s2) =
      move d1 (controlled d1 cs t p) (fun u => ψ (u ++ s2)) s1 := by
  rw [move_controlled_local ((fits_append h1.1).2 ⟨h1, h2⟩) (by simp; omega), move_controlled_local h1 ht,
    getD_left ht]
  apply map_congr_sum
  intro k _
  rw [set_left (by rw [h1.1]; exact ht), controlled_left (by simp [h1.1]) hcs ht]
  simp only [List.append_left_inj]

theorem move_right {d1 d2 s1 s2 : List Nat} (h1 : Fits d1 s1) (h2 : Fits d2 s2) {cs : List Nat} {t : Nat}
    (ht : t < d2.length) (p : Int) (ψ : State R) :
    move (d1 ++ d2) (controlled (d1 ++ d2) (cs.map (· + d1.length)) (t + d1.length) p) ψ (s1 ++ s2) =
      move d2 (controlled d2 cs t p) (fun u => ψ (s1 ++ u)) s2 := by
  rw [move_controlled_local ((fits_append h1.1).2 ⟨h1, h2⟩) (by simp; omega), move_controlled_local h2 ht,
    getD_right]
  apply map_congr_sum
  intro k _
  have : (s1 ++ s2).set (t + d1.length) k = s1 ++ s2.set t k := by rw [← h1.1]; exact set_right
  rw [this, controlled_right h1.1]
  simp only [List.append_right_inj]

/-! ### Blocks -/

theorem onBlock_left {d1 d2 s1 s2 : List Nat} (h1 : Fits d1 s1) {lb len : Nat}
    (h : lb + len ≤ d1.length) (U : Nat → Nat → R) (ψ : State R) :
    onBlock (d1 ++ d2) lb len U ψ (s1 ++ s2) = onBlock d1 lb len U (fun u => ψ (u ++ s2)) s1 := by
  have hl := h1.1
  unfold onBlock
  have e : ∀ {a b : List Nat}, lb + len ≤ a.length → ((a ++ b).drop lb).take len = (a.drop lb).take len := by
    intro a b ha
    rw [List.drop_append_of_le_length (by omega), List.take_append_of_le_length (by simp; omega)]
  simp only [e h, e (show lb + len ≤ s1.length by omega)]
  rw [List.take_append_of_le_length (by omega), List.drop_append_of_le_length (by omega)]
  simp only [List.append_assoc]

theorem onBlock_right {d1 d2 s1 s2 : List Nat} (h1 : Fits d1 s1) {lb len : Nat}
    (U : Nat → Nat → R) (ψ : State R) :
    onBlock (d1 ++ d2) (lb + d1.length) len U ψ (s1 ++ s2) = onBlock d2 lb len U (fun u => ψ (s1 ++ u)) s2 := by
  have hl := h1.1
  unfold onBlock
  have e : ∀ {a b : List Nat} (k : Nat), a.length = d1.length → (a ++ b).drop (lb + k + d1.length) = b.drop (lb + k) := by
    intro a b k ha
    rw [List.drop_append, List.drop_of_length_le (by omega), ha, Nat.add_sub_cancel]; rfl
  have e0 : ∀ {a b : List Nat}, a.length = d1.length → (a ++ b).drop (lb + d1.length) = b.drop lb :=
    fun ha => e 0 ha
  have e1 : (s1 ++ s2).take (lb + d1.length) = s1 ++ s2.take lb := by
    rw [List.take_append, List.take_of_length_le (by omega), hl, Nat.add_sub_cancel]
  have e2 : lb + d1.length + len = lb + len + d1.length := by omega
  simp only [e0 rfl, e0 hl, e1, e2, e len hl, List.append_assoc]

end

/-! ### Calls -/

section
variable {R : Type} [CommRing R] [StarRing R] [DecidableEq R] [UnitaryCheck R]

theorem toNat_add {q : Int} (h : 0 ≤ q) (n : Nat) : (q + n).toNat = q.toNat + n := by omega

theorem foldl_min_add (l : List Int) (a n : Int) : (l.map (· + n)).foldl min (a + n) = l.foldl min a + n := by
  induction l generalizing a with
  | nil => rfl
  | cons b l ih =>
    simp only [List.map_cons, List.foldl_cons]
    rw [show min (a + n) (b + n) = min a b + n by omega, ih]

theorem foldl_max_add (l : List Int) (a n : Int) : (l.map (· + n)).foldl max (a + n) = l.foldl max a + n := by
  induction l generalizing a with
  | nil => rfl
  | cons b l ih =>
    simp only [List.map_cons, List.foldl_cons]
    rw [show max (a + n) (b + n) = max a b + n by omega, ih]

theorem spanOf_shift {qs : List Int} (hne : qs ≠ []) (h0 : ∀ q ∈ qs, 0 ≤ q) (n : Nat) :
    spanOf (qs.map (· + (n : Int))) = ((spanOf qs).1 + n, (spanOf qs).2) := by
  cases qs with
  | nil => exact absurd rfl hne
  | cons q qs =>
    have hq := h0 q (by simp)
    have hmin : 0 ≤ (q :: qs).foldl min q := by
      rcases foldl_min_mem (q :: qs) q with e | e
      · rw [e]; exact hq
      · exact h0 _ e
    have e1 := foldl_min_add (q :: qs) q n
    have e2 := foldl_max_add (q :: qs) q n
    unfold spanOf
    have hh : ((q :: qs).map (· + (n : Int))).headD 0 = q + n := rfl
    simp only [hh, e1, e2]
    simp only [List.headD_cons]
    refine Prod.ext ?_ ?_
    · change _ = (List.foldl min q (q :: qs)).toNat + n
      rw [toNat_add hmin]
    · change _ = (List.foldl max q (q :: qs) + 1 - List.foldl min q (q :: qs)).toNat
      congr 1
      omega

theorem inRange_left {d1 : List Nat} (d2 : List Nat) {q : Int} (h : InRange d1 q) : InRange (d1 ++ d2) q := by
  unfold InRange at *
  simp
  omega

theorem inRange_right (d1 : List Nat) {d2 : List Nat} {q : Int} (h : InRange d2 q) :
    InRange (d1 ++ d2) (q + d1.length) := by
  unfold InRange at *
  simp
  omega

theorem InRange.lt {d : List Nat} {q : Int} (h : InRange d q) : q.toNat < d.length := by
  unfold InRange at h; omega

theorem dimOK_left {d1 : List Nat} (d2 : List Nat) {q : Int} {k : Option Nat} (h : InRange d1 q) (hk : DimOK d1 q k) :
    DimOK (d1 ++ d2) q k := by
  unfold DimOK at *
  rwa [getD_left h.lt]

theorem dimOK_right (d1 : List Nat) {d2 : List Nat} {q : Int} {k : Option Nat} (h : InRange d2 q) (hk : DimOK d2 q k) :
    DimOK (d1 ++ d2) (q + d1.length) k := by
  unfold DimOK at *
  rwa [toNat_add h.1, getD_right]

theorem valid_left {d1 : List Nat} (d2 : List Nat) {k : Call R} (h : k.Valid d1) : k.Valid (d1 ++ d2) := by
  cases k with
  | h q k => exact ⟨inRange_left d2 h.1, dimOK_left d2 h.1 h.2⟩
  | z q k => exact ⟨inRange_left d2 h.1, dimOK_left d2 h.1 h.2⟩
  | x q k p =>
    obtain ⟨h1, h2, h3, h4⟩ := h
    refine ⟨inRange_left d2 h1, dimOK_left d2 h1 h2, ?_⟩
    rw [getD_left h1.lt]
    exact ⟨h3, h4⟩
  | cx c t p => exact ⟨inRange_left d2 h.1, inRange_left d2 h.2⟩
  | toffoli cs t p => exact ⟨inRange_left d2 h.1, fun c hc => inRange_left d2 (h.2.1 c hc), h.2.2⟩
  | gate U q k =>
    cases q with
    | int q =>
      obtain ⟨h1, h2, h3, h4, h5⟩ := h
      refine ⟨inRange_left d2 h1, dimOK_left d2 h1 h2, h3, ?_⟩
      rw [getD_left h1.lt]
      exact ⟨h4, h5⟩
    | list qs =>
      obtain ⟨h1, h2, h3, h4, h5, h6, h7⟩ := h
      have hs := (span_in h1 h2).1
      refine ⟨h1, fun q hq => inRange_left d2 (h2 q hq), h3, h4, h5, ?_⟩
      rw [List.drop_append_of_le_length (by omega), List.take_append_of_le_length (by simp; omega)]
      exact ⟨h6, h7⟩
  | measure q => exact h.elim
  | measureAll => exact h.elim

theorem valid_right (d1 : List Nat) {d2 : List Nat} {k : Call R} (h : k.Valid d2) :
    (k.shift d1.length).Valid (d1 ++ d2) := by
  cases k with
  | h q k => exact ⟨inRange_right d1 h.1, dimOK_right d1 h.1 h.2⟩
  | z q k => exact ⟨inRange_right d1 h.1, dimOK_right d1 h.1 h.2⟩
  | x q k p =>
    obtain ⟨h1, h2, h3, h4⟩ := h
    refine ⟨inRange_right d1 h1, dimOK_right d1 h1 h2, ?_⟩
    rw [toNat_add h1.1, getD_right]
    exact ⟨h3, h4⟩
  | cx c t p => exact ⟨inRange_right d1 h.1, inRange_right d1 h.2⟩
  | toffoli cs t p =>
    obtain ⟨h1, h2, h3, h4⟩ := h
    refine ⟨inRange_right d1 h1, ?_, ?_, ?_⟩
    · rw [List.forall_mem_map]
      exact fun c hc => inRange_right d1 (h2 c hc)
    · intro hm
      obtain ⟨c, hc, e⟩ := List.mem_map.1 hm
      exact h3 (by rwa [show t = c by omega])
    · have := spanOf_shift (qs := cs ++ [t]) (by simp) (by
        intro q hq
        rcases List.mem_append.1 hq with hq | hq
        · exact (h2 q hq).1
        · rw [List.mem_singleton] at hq; rw [hq]; exact h1.1) d1.length
      rw [List.map_append] at this
      change (spanOf (cs.map (· + (d1.length : Int)) ++ [t].map (· + (d1.length : Int)))).2 ≠ 2
      rw [this]
      exact h4
  | gate U q k =>
    cases q with
    | int q =>
      obtain ⟨h1, h2, h3, h4, h5⟩ := h
      refine ⟨inRange_right d1 h1, dimOK_right d1 h1 h2, h3, ?_⟩
      rw [toNat_add h1.1, getD_right]
      exact ⟨h4, h5⟩
    | list qs =>
      obtain ⟨h1, h2, h3, h4, h5, h6, h7⟩ := h
      refine ⟨by simpa using h1, ?_, h3, by simpa using h4, h5, ?_⟩
      · rw [List.forall_mem_map]
        exact fun c hc => inRange_right d1 (h2 c hc)
      · rw [spanOf_shift h1 (fun q hq => (h2 q hq).1)]
        simp only
        rw [List.drop_append, List.drop_of_length_le (by omega), Nat.add_sub_cancel]
        exact ⟨h6, h7⟩
  | measure q => exact h.elim
  | measureAll => exact h.elim

theorem meaning_left (N : Numerics R) {d1 d2 s1 s2 : List Nat} (h1 : Fits d1 s1) (h2 : Fits d2 s2)
    {k : Call R} (hv : k.Valid d1) (ψ : State R) :
    meaning N (d1 ++ d2) k ψ (s1 ++ s2) = meaning N d1 k (fun u => ψ (u ++ s2)) s1 := by
  have hl := h1.1
  cases k with
  | h q k =>
    have := hv.1.lt
    simp only [meaning, getD_left this]
    exact onReg_left (by omega) _ _ _
  | z q k =>
    have := hv.1.lt
    simp only [meaning, getD_left this]
    exact onReg_left (by omega) _ _ _
  | x q k p =>
    simp only [meaning, bump_eq_controlled]
    exact move_left h1 h2 (by simp) hv.1.lt p ψ
  | cx c t p => exact move_left h1 h2 (by simpa using hv.1.lt) hv.2.lt p ψ
  | toffoli cs t p =>
    refine move_left h1 h2 ?_ hv.1.lt p ψ
    rw [List.forall_mem_map]
    exact fun c hc => (hv.2.1 c hc).lt
  | gate U q k =>
    cases q with
    | int q =>
      have := hv.1.lt
      simp only [meaning, getD_left this]
      exact onReg_left (by omega) _ _ _
    | list qs => exact onBlock_left h1 (span_in hv.1 hv.2.1).1 _ ψ
  | measure q => exact hv.elim
  | measureAll => exact hv.elim

theorem meaning_right (N : Numerics R) {d1 d2 s1 s2 : List Nat} (h1 : Fits d1 s1) (h2 : Fits d2 s2)
    {k : Call R} (hv : k.Valid d2) (ψ : State R) :
    meaning N (d1 ++ d2) (k.shift d1.length) ψ (s1 ++ s2) = meaning N d2 k (fun u => ψ (s1 ++ u)) s2 := by
  have hl := h1.1
  cases k with
  | h q k =>
    simp only [meaning, Call.shift, toNat_add hv.1.1, getD_right]
    rw [← hl]
    exact onReg_right _ _ _
  | z q k =>
    simp only [meaning, Call.shift, toNat_add hv.1.1, getD_right]
    rw [← hl]
    exact onReg_right _ _ _
  | x q k p =>
    simp only [meaning, Call.shift, bump_eq_controlled, toNat_add hv.1.1]
    exact move_right (cs := []) h1 h2 hv.1.lt p ψ
  | cx c t p =>
    simp only [meaning, Call.shift, toNat_add hv.1.1, toNat_add hv.2.1]
    exact move_right (cs := [c.toNat]) h1 h2 hv.2.lt p ψ
  | toffoli cs t p =>
    simp only [meaning, Call.shift, toNat_add hv.1.1]
    have : (cs.map (· + (d1.length : Int))).map Int.toNat = (cs.map Int.toNat).map (· + d1.length) := by
      rw [List.map_map, List.map_map]
      apply List.map_congr_left
      intro c hc
      exact toNat_add (hv.2.1 c hc).1 _
    rw [this]
    exact move_right h1 h2 hv.1.lt p ψ
  | gate U q k =>
    cases q with
    | int q =>
      simp only [meaning, Call.shift, toNat_add hv.1.1, getD_right]
      rw [← hl]
      exact onReg_right _ _ _
    | list qs =>
      simp only [meaning, Call.shift, spanOf_shift hv.1 (fun q hq => (hv.2.1 q hq).1)]
      exact onBlock_right h1 _ ψ
  | measure q => exact hv.elim
  | measureAll => exact hv.elim

theorem meaning_scale (N : Numerics R) {dims s : List Nat} (hs : Fits dims s) {k : Call R} (hv : k.Valid dims)
    (ψ : State R) (c : R) : meaning N dims k (fun u => c * ψ u) s = c * meaning N dims k ψ s := by
  obtain ⟨ι, l, a, g, f1, _⟩ := meaning_local N hv
  rw [f1 _ s hs, f1 _ s hs, ← List.sum_map_mul_left]
  apply map_congr_sum
  intro i _
  ring

end

end QuDiet
