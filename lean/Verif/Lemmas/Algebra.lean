import Verif.Lemmas.Script

/-! # Algebra of the documented gate effects -/

namespace QuDiet
open Spec

section
variable {R : Type} [CommRing R]

/-! ### Classical moves -/

theorem move_basis {dims s0 : List Nat} (h : Fits dims s0) (f : List Nat → List Nat) :
    move dims f (basis s0 : State R) = basis (f s0) := by
  funext s
  unfold move basis
  rw [← sum_ite_zero]
  have : ((states dims).map fun t => if f t = s then (if t = s0 then (1 : R) else 0) else 0)
      = (states dims).map fun t => if s0 = t then (if f t = s then (1 : R) else 0) else 0 := by
    apply List.map_congr_left
    intro t _
    by_cases h1 : t = s0
    · simp [h1]
    · simp [h1, Ne.symm h1]
  rw [this, sum_ite_eq _ (nodup_states dims) s0 (mem_states.2 h)]
  by_cases h1 : f s0 = s
  · rw [if_pos h1, if_pos h1.symm]
  · rw [if_neg h1, if_neg (Ne.symm h1)]

theorem move_apply {dims s : List Nat} (hs : Fits dims s) {f : List Nat → List Nat}
    (hf : ∀ t, Fits dims t → f t = f s → t = s) (ψ : State R) : move dims f ψ (f s) = ψ s := by
  unfold move
  rw [← sum_ite_zero]
  have : ((states dims).map fun t => if f t = f s then ψ t else 0)
      = (states dims).map fun t => if s = t then ψ t else 0 := by
    apply List.map_congr_left
    intro t ht
    by_cases h1 : s = t
    · simp [h1]
    · rw [if_neg h1, if_neg]
      intro h; exact h1 (hf t (mem_states.1 ht) h).symm
  rw [this, sum_ite_eq _ (nodup_states dims) s (mem_states.2 hs)]

theorem move_move {dims : List Nat} {f g : List Nat → List Nat}
    (hg : ∀ s, Fits dims s → Fits dims (g s)) (ψ : State R) :
    move dims f (move dims g ψ) = move dims (fun s => f (g s)) ψ := by
  funext s
  unfold move
  rw [← sum_ite_zero, ← sum_ite_zero]
  have : ∀ t, (if f t = s then (((states dims).filter fun u => g u = t).map ψ).sum else 0)
      = ((states dims).map fun u => if t = g u then (if f t = s then ψ u else 0) else 0).sum := by
    intro t
    rw [← sum_ite_zero]
    by_cases h : f t = s
    · simp only [h, if_true, eq_comm]
    · simp [h]
  simp only [this]
  rw [sum_comm]
  apply map_congr_sum
  intro u hu
  simp only [eq_comm (b := g u)]
  rw [sum_ite_eq _ (nodup_states dims) (g u) (mem_states.2 (hg u (mem_states.1 hu)))
    (fun t => if f t = s then ψ u else 0)]

theorem move_id {dims : List Nat} {f : List Nat → List Nat} (h : ∀ s, Fits dims s → f s = s)
    (ψ : State R) : EqOn dims (move dims f ψ) ψ := by
  intro s hs
  have := move_apply hs (f := f) (fun t ht e => by rw [h t ht, h s hs] at e; exact e) ψ
  rwa [h s hs] at this

theorem move_eqOn {dims : List Nat} {f : List Nat → List Nat} {ψ φ : State R} (h : EqOn dims ψ φ) :
    move dims f ψ = move dims f φ := by
  funext s
  unfold move
  apply map_congr_sum
  intro t ht
  exact h t (mem_states.1 (List.mem_filter.1 ht).1)

theorem getD_set_self {s : List Nat} {q k : Nat} (h : q < s.length) : (s.set q k).getD q 0 = k := by
  simp [List.getD_eq_getElem?_getD, h]

theorem getD_set_ne {s : List Nat} {q r k : Nat} (h : q ≠ r) : (s.set q k).getD r 0 = s.getD r 0 := by
  simp [List.getD_eq_getElem?_getD, List.getElem?_set_ne h]

theorem set_getD_self {s : List Nat} {q : Nat} (h : q < s.length) : s.set q (s.getD q 0) = s := by
  simp [List.getD_eq_getElem?_getD, h]

theorem bump_zero {dims s : List Nat} (hs : Fits dims s) {q : Nat} (hq : q < dims.length) {p : Int}
    (hp : p % (dims.getD q 0 : Int) = 0) : bump dims q p s = s := by
  have hl : q < s.length := by rw [hs.1]; exact hq
  have hlt := fits_getD_lt hs q hq
  unfold bump
  rw [Int.add_emod, hp, Int.add_zero, Int.emod_emod, Int.emod_eq_of_lt (by omega) (by omega),
    Int.toNat_natCast, set_getD_self hl]

theorem bump_neg {dims s : List Nat} (hs : Fits dims s) {q : Nat} (hq : q < dims.length) (p : Int) :
    bump dims q (-p) (bump dims q p s) = s := by
  rw [bump_bump hs q hq, bump_zero hs hq]
  simp

theorem controlled_zero {dims s : List Nat} (hs : Fits dims s) {cs : List Nat} {t : Nat}
    (ht : t < dims.length) {p : Int} (hp : p % (dims.getD t 0 : Int) = 0) :
    controlled dims cs t p s = s := by
  unfold controlled
  split
  · exact bump_zero hs ht hp
  · rfl

theorem controlled_neg {dims s : List Nat} (hs : Fits dims s) {cs : List Nat} {t : Nat}
    (ht : t < dims.length) (hcs : t ∉ cs) (p : Int) :
    controlled dims cs t (-p) (controlled dims cs t p s) = s := by
  rw [controlled_controlled hs cs t ht hcs, controlled_zero hs ht]
  simp

theorem bump_inj {dims s t : List Nat} (hs : Fits dims s) (ht : Fits dims t) {q : Nat}
    (hq : q < dims.length) {p : Int} (h : bump dims q p t = bump dims q p s) : t = s := by
  rw [← bump_neg hs hq p, ← bump_neg ht hq p, h]

theorem controlled_inj {dims s u : List Nat} (hs : Fits dims s) (hu : Fits dims u) {cs : List Nat} {t : Nat}
    (ht : t < dims.length) (hcs : t ∉ cs) {p : Int}
    (h : controlled dims cs t p u = controlled dims cs t p s) : u = s := by
  rw [← controlled_neg hs ht hcs p, ← controlled_neg hu ht hcs p, h]

/-! ### A move that only changes one register is a local sum -/

theorem states_set_sum {dims s : List Nat} (hs : Fits dims s) {q : Nat} (hq : q < dims.length)
    (P : List Nat → Prop) [DecidablePred P] (hP : ∀ t, Fits dims t → P t → ∃ k, t = s.set q k)
    (ψ : State R) :
    (((states dims).filter P).map ψ).sum
      = ((List.range (dims.getD q 0)).map fun k => if P (s.set q k) then ψ (s.set q k) else 0).sum := by
  have hl : q < s.length := by rw [hs.1]; exact hq
  rw [← sum_ite_zero]
  have e1 : ∀ k ∈ List.range (dims.getD q 0), (if P (s.set q k) then ψ (s.set q k) else 0)
      = ((states dims).map fun t => if s.set q k = t then (if P t then ψ t else 0) else 0).sum := by
    intro k hk
    rw [sum_ite_eq _ (nodup_states dims) (s.set q k)
      (mem_states.2 (fits_set hs q k (by simpa using hk))) (fun t => if P t then ψ t else 0)]
  rw [map_congr_sum e1, sum_comm]
  apply map_congr_sum
  intro t ht
  by_cases hp : P t
  · simp only [hp, if_true]
    obtain ⟨k, rfl⟩ := hP t (mem_states.1 ht) hp
    have hk : k < dims.getD q 0 := by
      have := fits_getD_lt (mem_states.1 ht) q hq
      rwa [getD_set_self hl] at this
    have : ∀ k', (s.set q k' = s.set q k) ↔ k = k' := by
      intro k'
      constructor
      · intro h
        have := congrArg (fun l => l.getD q 0) h
        simp only [getD_set_self hl] at this
        exact this.symm
      · rintro rfl; rfl
    simp only [this]
    rw [sum_ite_eq _ List.nodup_range k (List.mem_range.2 hk) (fun _ => ψ (s.set q k))]
  · simp [hp]

theorem controlled_set {dims s u cs : List Nat} {t : Nat} {p : Int} (hl : u.length = s.length)
    (h : controlled dims cs t p u = s) : u = s.set t (u.getD t 0) := by
  unfold controlled at h
  split at h
  · unfold bump at h
    subst h
    rw [List.set_set]
    by_cases ht : t < u.length
    · rw [set_getD_self ht]
    · rw [List.set_eq_of_length_le (by omega)]
  · subst h
    by_cases ht : t < u.length
    · rw [set_getD_self ht]
    · rw [List.set_eq_of_length_le (by omega)]

theorem move_controlled_local {dims s : List Nat} (hs : Fits dims s) {cs : List Nat} {t : Nat}
    (ht : t < dims.length) (p : Int) (ψ : State R) :
    move dims (controlled dims cs t p) ψ s = ((List.range (dims.getD t 0)).map fun k =>
      (if controlled dims cs t p (s.set t k) = s then 1 else 0) * ψ (s.set t k)).sum := by
  unfold move
  rw [states_set_sum hs ht (fun u => controlled dims cs t p u = s)
    (fun u hu h => ⟨_, controlled_set (by rw [hu.1, hs.1]) h⟩)]
  apply map_congr_sum
  intro k _
  split <;> simp

theorem bump_eq_controlled (dims : List Nat) (q : Nat) (p : Int) :
    bump dims q p = controlled dims [] q p := by
  funext s
  simp [controlled]

end

end QuDiet
