import Mathlib.GroupTheory.Perm.Fin
import Mathlib.GroupTheory.Perm.Sign
import Mathlib.GroupTheory.OrderOfElement

/-! # Permutations of level vectors

Which permutations of the vectors of levels are generated by increments of one register, and increments of one register that are
controlled by all the others. No circuits here; see Props/Reversible. -/

namespace QuDiet.Rev

open Equiv Equiv.Perm

variable {ι : Type} [DecidableEq ι] {d : ι → ℕ} [∀ i, NeZero (d i)]

/-- A level for each register. -/
abbrev V (d : ι → ℕ) := (i : ι) → Fin (d i)

/-- Add `p` to register `t`. -/
def add (t : ι) (p : Fin (d t)) (u : V d) : V d := Function.update u t (u t + p)

theorem add_same (t : ι) (p : Fin (d t)) (u : V d) : add t p u t = u t + p := by simp [add]

theorem add_ne {t c : ι} (h : c ≠ t) (p : Fin (d t)) (u : V d) : add t p u c = u c := by simp [add, h]

theorem add_add (t : ι) (p q : Fin (d t)) (u : V d) : add t p (add t q u) = add t (q + p) u := by
  funext c
  by_cases h : c = t
  · subst h; simp [add_same, add_assoc]
  · simp [add_ne h]

theorem add_zero' (t : ι) (u : V d) : add t 0 u = u := by simp [add]

/-- Add `p` to register `t` where the condition `P` holds, which does not look at register `t`. -/
def when (P : V d → Prop) [DecidablePred P] (t : ι) (hP : ∀ p u, P (add t p u) ↔ P u) (p : Fin (d t)) : Perm (V d) where
  toFun u := if P u then add t p u else u
  invFun u := if P u then add t (-p) u else u
  left_inv u := by
    by_cases h : P u
    · simp [h, hP, add_add, add_zero']
    · simp [h]
  right_inv u := by
    by_cases h : P u
    · simp [h, hP, add_add, add_zero']
    · simp [h]

/-- All registers but `t` have the levels of `w`. -/
def Agree (w : V d) (t : ι) (u : V d) : Prop := ∀ c, c ≠ t → u c = w c

theorem agree_add (w : V d) (t : ι) (p : Fin (d t)) (u : V d) : Agree w t (add t p u) ↔ Agree w t u :=
  forall₂_congr fun c hc => by rw [add_ne hc]

open Classical in
/-- The increment of register `t` when all others have the levels of `w`. -/
noncomputable def ctl (w : V d) (t : ι) (p : Fin (d t)) : Perm (V d) := when (Agree w t) t (agree_add w t) p

/-- The increment of register `t`. -/
def rot (t : ι) (p : Fin (d t)) : Perm (V d) := when (fun _ => True) t (fun _ _ => Iff.rfl) p

theorem rot_apply (t : ι) (p : Fin (d t)) (u : V d) : rot t p u = add t p u := by simp [rot, when]

theorem ctl_pos {w : V d} {t : ι} {u : V d} (h : Agree w t u) (p : Fin (d t)) : ctl w t p u = add t p u := by
  simp [ctl, when, h]

theorem ctl_neg {w : V d} {t : ι} {u : V d} (h : ¬ Agree w t u) (p : Fin (d t)) : ctl w t p u = u := by
  simp [ctl, when, h]

theorem add_comm' {t c : ι} (h : c ≠ t) (p : Fin (d t)) (q : Fin (d c)) (u : V d) : add t p (add c q u) = add c q (add t p u) := by
  funext e
  by_cases h1 : e = t
  · subst h1
    rw [add_same, add_ne (Ne.symm h), add_ne (Ne.symm h), add_same]
  · rw [add_ne h1]
    by_cases h2 : e = c
    · subst h2; rw [add_same, add_same, add_ne h1]
    · rw [add_ne h2, add_ne h2, add_ne h1]

/-- Conjugating with an increment moves the condition. -/
theorem rot_conj {t c : ι} (h : c ≠ t) (w : V d) (p : Fin (d t)) (q : Fin (d c)) :
    rot c q * ctl w t p * rot c (-q) = ctl (add c q w) t p := by
  ext1 u
  rw [Perm.mul_apply, Perm.mul_apply, rot_apply, rot_apply]
  have key : Agree w t (add c (-q) u) ↔ Agree (add c q w) t u := by
    refine forall₂_congr fun e he => ?_
    by_cases hc : e = c
    · subst hc
      rw [add_same, add_same, ← sub_eq_add_neg, sub_eq_iff_eq_add]
    · rw [add_ne hc, add_ne hc]
  by_cases ha : Agree (add c q w) t u
  · rw [ctl_pos ha, ctl_pos (key.2 ha), add_comm' h, add_add]
    simp [add_zero']
  · rw [ctl_neg ha, ctl_neg (fun hk => ha (key.1 hk)), add_add]
    simp [add_zero']

theorem ctl_congr {w w' : V d} {t : ι} (h : ∀ c, c ≠ t → w c = w' c) (p : Fin (d t)) : ctl w t p = ctl w' t p := by
  ext1 u
  have : Agree w t u ↔ Agree w' t u := forall₂_congr fun c hc => by rw [h c hc]
  by_cases ha : Agree w t u
  · rw [ctl_pos ha, ctl_pos (this.1 ha)]
  · rw [ctl_neg ha, ctl_neg fun hk => ha (this.2 hk)]

section
variable [Fintype ι] {H : Subgroup (Perm (V d))} (hrot : ∀ t p, rot t p ∈ H)
include hrot

theorem ctl_mem {w₀ : V d} {t : ι} {p : Fin (d t)} (h : ctl w₀ t p ∈ H) (w : V d) : ctl w t p ∈ H := by
  classical
  have key : ∀ A : Finset ι, ctl (fun c => if c ∈ A then w c else w₀ c) t p ∈ H := by
    intro A
    induction A using Finset.induction_on with
    | empty => simpa using h
    | insert c A hc ih =>
      by_cases hct : c = t
      · rw [ctl_congr (w' := fun c => if c ∈ A then w c else w₀ c)]
        · exact ih
        · intro e he
          simp [Finset.mem_insert, show e ≠ c from fun h => he (h.trans hct)]
      · have := H.mul_mem (H.mul_mem (hrot c (w c - w₀ c)) ih) (hrot c (-(w c - w₀ c)))
        rw [rot_conj hct] at this
        rw [ctl_congr (w' := add c (w c - w₀ c) fun c => if c ∈ A then w c else w₀ c)]
        · exact this
        · intro e _
          by_cases hec : e = c
          · subst hec
            simp [add_same, hc]
          · rw [add_ne hec]
            simp [hec]
  have := key Finset.univ
  simpa using this

end

/-! ### Commutators -/

theorem app_inv {α : Type} (σ : Perm α) (x : α) : σ (σ⁻¹ x) = x := Equiv.apply_symm_apply σ x

theorem inv_app {α : Type} (σ : Perm α) (x : α) : σ⁻¹ (σ x) = x := Equiv.symm_apply_apply σ x

theorem commutator_apply {α : Type} [DecidableEq α] {σ τ : Perm α} {x : α} (hσ : σ x ≠ x) (hτ : τ x ≠ x)
    (h : ∀ y, y ≠ x → σ y = y ∨ τ y = y) :
    σ * τ * σ⁻¹ * τ⁻¹ = swap x (σ x) * swap (σ x) (τ x) := by
  have hσ' : ∀ y, σ y ≠ y → y ≠ x → τ y = y := fun y h1 h2 => (h y h2).resolve_left h1
  have hτ' : ∀ y, τ y ≠ y → y ≠ x → σ y = y := fun y h1 h2 => (h y h2).resolve_right h1
  have fixinv : ∀ (ρ : Perm α) {y}, ρ y = y → ρ⁻¹ y = y := fun ρ y e => by rw [Perm.inv_eq_iff_eq, e]
  have movinv : ∀ (ρ : Perm α) {y}, ρ y ≠ y → ρ (ρ⁻¹ y) ≠ ρ⁻¹ y := fun ρ y e => by
    rw [app_inv]
    intro e'
    exact e (by rw [← Perm.eq_inv_iff_eq]; exact e')
  have mov : ∀ (ρ : Perm α) {y}, ρ y ≠ y → ρ (ρ y) ≠ ρ y := fun ρ y e e' => e (ρ.injective e')
  have ha : τ (σ x) = σ x := hσ' _ (mov σ hσ) hσ
  have hb : σ (τ x) = τ x := hτ' _ (mov τ hτ) hτ
  have hab : σ x ≠ τ x := by
    intro e
    rw [e] at ha
    exact mov τ hτ ha
  ext1 y
  simp only [Perm.mul_apply]
  by_cases h1 : y = x
  · subst h1
    rw [swap_apply_of_ne_of_ne (a := σ y) hσ.symm hτ.symm, swap_apply_left]
    have hz : τ⁻¹ y ≠ y := by rw [Ne, Perm.inv_eq_iff_eq]; exact fun e => hτ e.symm
    rw [fixinv σ (hτ' _ (movinv τ hτ) hz), app_inv]
  by_cases h2 : y = σ x
  · subst h2
    rw [swap_apply_left, swap_apply_of_ne_of_ne hτ hab.symm, fixinv τ ha, inv_app, hb]
  by_cases h3 : y = τ x
  · subst h3
    rw [swap_apply_right, swap_apply_right, inv_app]
    have hz : σ⁻¹ x ≠ x := by rw [Ne, Perm.inv_eq_iff_eq]; exact fun e => hσ e.symm
    rw [hσ' _ (movinv σ hσ) hz, app_inv]
  rw [swap_apply_of_ne_of_ne h2 h3, swap_apply_of_ne_of_ne h1 h2]
  by_cases h4 : σ y = y
  · by_cases h5 : τ y = y
    · rw [fixinv τ h5, fixinv σ h4, h5, h4]
    · have hz : τ⁻¹ y ≠ x := by rw [Ne, Perm.inv_eq_iff_eq]; exact h3
      rw [fixinv σ (hτ' _ (movinv τ h5) hz), app_inv, h4]
  · have h5 := hσ' y h4 h1
    have hz : σ⁻¹ y ≠ x := by rw [Ne, Perm.inv_eq_iff_eq]; exact h2
    rw [fixinv τ h5, hσ' _ (movinv σ h4) hz, app_inv]

/-! ### Transpositions -/

section
variable {α : Type} [DecidableEq α] (H : Subgroup (Perm α))

/-- Two transpositions are the same up to `H`. -/
def Near (x y x' y' : α) : Prop := swap x y * swap x' y' ∈ H

variable {H}

theorem Near.symm {x y x' y' : α} (h : Near H x y x' y') : Near H x' y' x y := by
  have := H.inv_mem h
  rwa [mul_inv_rev, swap_inv, swap_inv] at this

theorem Near.trans {x y x' y' x'' y'' : α} (h : Near H x y x' y') (h' : Near H x' y' x'' y'') : Near H x y x'' y'' := by
  have := H.mul_mem h h'
  rwa [mul_assoc, ← mul_assoc (swap x' y'), swap_mul_self, one_mul] at this

theorem Near.flip {x y x' y' : α} (h : Near H x y x' y') : Near H y x x' y' := by
  unfold Near; rw [swap_comm]; exact h

theorem Near.flip' {x y x' y' : α} (h : Near H x y x' y') : Near H x y y' x' := by
  unfold Near; rw [swap_comm y']; exact h

/-- The three transpositions of a 3-cycle. -/
theorem Near.third {x a b : α} (hxa : x ≠ a) (hxb : x ≠ b) (h : Near H x a a b) : Near H x a x b := by
  unfold Near
  rw [swap_comm x b, ← swap_mul_swap_mul_swap hxa hxb, ← mul_assoc, ← mul_assoc, mul_assoc (swap x a * swap a b)]
  exact H.mul_mem h h

/-- If all transpositions are the same up to `H`, then `H` contains all even permutations. -/
theorem even_mem [Fintype α] {e f : α} (hef : e ≠ f) (h : ∀ x y, x ≠ y → Near H x y e f) (σ : Perm α) :
    (sign σ = 1 → σ ∈ H) ∧ (sign σ = -1 → σ * swap e f ∈ H) := by
  have two : ∀ x y x' y', x ≠ y → x' ≠ y' → swap x y * swap x' y' ∈ H := fun x y x' y' h1 h2 => (h x y h1).trans (h x' y' h2).symm
  have move : ∀ g ∈ H, ∀ x y, x ≠ y → swap x y * g * swap e f ∈ H := by
    intro g hg x y hxy
    have : swap x y * g * swap e f = swap x y * swap (g e) (g f) * g := by
      rw [mul_assoc, Equiv.mul_swap_eq_swap_mul, mul_assoc]
    rw [this]
    exact H.mul_mem (two _ _ _ _ hxy fun he => hef (g.injective he)) hg
  induction σ using swap_induction_on with
  | one => exact ⟨fun _ => H.one_mem, fun h => by simp at h⟩
  | swap_mul g x y hxy ih =>
    rw [sign_mul, sign_swap hxy]
    constructor
    · intro hs
      have := move _ (ih.2 (by simpa [neg_eq_iff_eq_neg] using hs)) x y hxy
      rwa [mul_assoc, mul_assoc, swap_mul_self, mul_one] at this
    · intro hs
      exact move _ (ih.1 (by simpa using hs)) x y hxy

end

/-! ### The group generated -/

section
variable [Fintype ι] [Nontrivial ι] (hd : ∀ i, 2 ≤ d i) {H : Subgroup (Perm (V d))} (hctl : ∀ w t p, ctl w t p ∈ H)

omit [DecidableEq ι] [Fintype ι] [Nontrivial ι] in
include hd in
theorem one_ne (i : ι) : (1 : Fin (d i)) ≠ 0 := by
  have := hd i
  intro h
  have := congrArg Fin.val h
  rw [Fin.val_one', Fin.val_zero, Nat.mod_eq_of_lt (by omega)] at this
  omega

theorem agree_self (u : V d) (t : ι) : Agree u t u := fun _ _ => rfl

theorem add_ne_self {t : ι} {p : Fin (d t)} (hp : p ≠ 0) (u : V d) : add t p u ≠ u := by
  intro h
  have := congrFun h t
  rw [add_same] at this
  exact hp (by simpa using this)

include hctl

theorem edges_ne {t t' : ι} (htt : t ≠ t') {p : Fin (d t)} {q : Fin (d t')} (hp : p ≠ 0) (hq : q ≠ 0) (u : V d) :
    Near H u (add t p u) u (add t' q u) := by
  have h1 : ctl u t p u = add t p u := ctl_pos (agree_self u t) p
  have h2 : ctl u t' q u = add t' q u := ctl_pos (agree_self u t') q
  have h := commutator_apply (σ := ctl u t p) (τ := ctl u t' q) (x := u) (by rw [h1]; exact add_ne_self hp u)
    (by rw [h2]; exact add_ne_self hq u) (by
      intro y hy
      by_cases ha : Agree u t y
      · refine .inr (ctl_neg (fun hb => hy ?_) q)
        funext c
        by_cases hc : c = t
        · exact hb c (by rw [hc]; exact htt)
        · exact ha c hc
      · exact .inl (ctl_neg ha p))
  rw [h1, h2] at h
  refine Near.third (add_ne_self hp u).symm (add_ne_self hq u).symm ?_
  unfold Near
  rw [← h]
  exact H.mul_mem (H.mul_mem (H.mul_mem (hctl _ _ _) (hctl _ _ _)) (H.inv_mem (hctl _ _ _))) (H.inv_mem (hctl _ _ _))

include hd

theorem edges_at (u : V d) {t t' : ι} {p : Fin (d t)} {q : Fin (d t')} (hp : p ≠ 0) (hq : q ≠ 0) :
    Near H u (add t p u) u (add t' q u) := by
  by_cases h : t = t'
  · obtain ⟨s, hs⟩ := exists_ne t
    exact (edges_ne hctl hs.symm hp (one_ne hd s) u).trans (edges_ne hctl (h ▸ hs) (one_ne hd s) hq u)
  · exact edges_ne hctl h hp hq u

theorem near_all {x y : V d} (hxy : x ≠ y) (u₀ : V d) (t₀ : ι) : Near H x y u₀ (add t₀ 1 u₀) := by
  classical
  -- all edges
  have edges : ∀ (u : V d) (t : ι) (p : Fin (d t)), p ≠ 0 → Near H u (add t p u) u₀ (add t₀ 1 u₀) := by
    intro w
    have key : ∀ A : Finset ι, ∀ (t : ι) (p : Fin (d t)), p ≠ 0 →
        Near H (fun c => if c ∈ A then w c else u₀ c) (add t p fun c => if c ∈ A then w c else u₀ c) u₀ (add t₀ 1 u₀) := by
      intro A
      induction A using Finset.induction_on with
      | empty =>
        intro t p hp
        simpa using edges_at hd hctl u₀ hp (one_ne hd t₀)
      | insert c A hc ih =>
        intro t p hp
        have e : (fun e => if e ∈ insert c A then w e else u₀ e) = add c (w c - u₀ c) fun e => if e ∈ A then w e else u₀ e := by
          funext e
          by_cases hec : e = c
          · subst hec; simp [add_same, hc]
          · rw [add_ne hec]; simp [hec]
        rw [e]
        by_cases hz : w c - u₀ c = 0
        · rw [hz, add_zero']
          exact ih t p hp
        · have h1 := ih c (w c - u₀ c) hz
          have h2 := edges_at hd hctl (add c (w c - u₀ c) fun e => if e ∈ A then w e else u₀ e) (t := t) (t' := c) hp (neg_ne_zero.2 hz)
          rw [add_add c, add_neg_cancel, add_zero'] at h2
          exact h2.flip'.trans h1
    have := key Finset.univ
    simpa using this
  -- all pairs
  have key : ∀ A : Finset ι, x = (fun c => if c ∈ A then y c else x c) ∨
      Near H x (fun c => if c ∈ A then y c else x c) u₀ (add t₀ 1 u₀) := by
    intro A
    induction A using Finset.induction_on with
    | empty => left; simp
    | insert c A hc ih =>
      have e : (fun e => if e ∈ insert c A then y e else x e) = add c (y c - x c) fun e => if e ∈ A then y e else x e := by
        funext e
        by_cases hec : e = c
        · subst hec; simp [add_same, hc]
        · rw [add_ne hec]; simp [hec]
      rw [e]
      generalize (fun e => if e ∈ A then y e else x e) = z at ih
      by_cases hz : y c - x c = 0
      · rw [hz, add_zero']; exact ih
      · by_cases hx : x = add c (y c - x c) z
        · exact .inl hx
        · right
          have h1 := edges z c (y c - x c) hz
          rcases ih with rfl | ih
          · exact h1
          · by_cases hxz : x = z
            · rw [hxz] at h1 ⊢
              rw [hxz] at hz
              exact h1
            · exact (Near.third hxz hx (ih.trans h1.symm)).symm.trans ih
  have := key Finset.univ
  simp only [Finset.mem_univ, if_true] at this
  exact this.resolve_left hxy

theorem even_all (σ : Perm (V d)) (hs : sign σ = 1) : σ ∈ H := by
  obtain ⟨t⟩ : Nonempty ι := inferInstance
  exact (even_mem (e := 0) (add_ne_self (one_ne hd t) 0).symm (fun x y h => near_all hd hctl h 0 t) σ).1 hs

theorem odd_all {ρ : Perm (V d)} (hρ : ρ ∈ H) (ho : sign ρ = -1) (σ : Perm (V d)) : σ ∈ H := by
  rcases Int.units_eq_one_or (sign σ) with hs | hs
  · exact even_all hd hctl σ hs
  · have := H.mul_mem (even_all hd hctl (σ * ρ⁻¹) (by rw [sign_mul, sign_inv, hs, ho]; rfl)) hρ
    rwa [inv_mul_cancel_right] at this

end

/-! ### Signs -/

section
variable [Fintype ι]

/-- The vectors that agree with `w`, but for register `t`. -/
def line (w : V d) (t : ι) : Fin (d t) ≃ {u : V d // Agree w t u} where
  toFun k := ⟨Function.update w t k, fun c hc => by simp [hc]⟩
  invFun u := u.1 t
  left_inv k := by simp
  right_inv u := by
    apply Subtype.ext
    funext c
    by_cases h : c = t
    · subst h; simp
    · simp [h, u.2 c h]

theorem sign_ctl (w : V d) (t : ι) (h : Even (d t)) : sign (ctl w t 1) = -1 := by
  classical
  have e : ctl w t 1 = (Equiv.addRight (1 : Fin (d t))).extendDomain (line w t) := by
    ext1 u
    by_cases hu : Agree w t u
    · rw [ctl_pos hu, Perm.extendDomain_apply_subtype _ _ hu]
      funext c
      by_cases hc : c = t
      · subst hc; simp [line, add_same]
      · simp [line, add_ne hc, hc, hu c hc]
    · rw [ctl_neg hu, Perm.extendDomain_apply_not_subtype _ _ hu]
  have r : (Equiv.addRight (1 : Fin (d t)) : Perm (Fin (d t))) = finRotate (d t) := by
    ext1 i
    exact (finRotate_apply i).symm
  rw [e, sign_extendDomain, r, sign_finRotate]
  have := NeZero.ne (d t)
  exact Odd.neg_one_pow (Nat.Even.sub_odd (by omega) h odd_one)

/-- An increment under a condition is even if the register has an odd number of levels. -/
theorem sign_when (P : V d → Prop) [DecidablePred P] (t : ι) (hP : ∀ p u, P (add t p u) ↔ P u) (p : Fin (d t)) (h : Odd (d t)) :
    sign (when P t hP p) = 1 := by
  have pow : ∀ (n : ℕ) (u : V d), ((when P t hP p) ^ n) u = if P u then add t (n • p) u else u := by
    intro n
    induction n with
    | zero => intro u; simp [add_zero']
    | succ n ih =>
      intro u
      rw [pow_succ', Perm.mul_apply, ih]
      by_cases hu : P u
      · simp only [hu, if_true]
        show (if P _ then _ else _) = _
        rw [if_pos ((hP _ _).2 hu), add_add, succ_nsmul]
      · simp only [hu, if_false]
        exact if_neg hu
  have one : (when P t hP p) ^ d t = 1 := by
    ext1 u
    rw [pow]
    have : d t • p = 0 := by
      have := card_nsmul_eq_zero' (G := Fin (d t)) (x := p)
      rwa [Nat.card_eq_fintype_card, Fintype.card_fin] at this
    rw [this, add_zero']
    split <;> rfl
  have := congrArg sign one
  rw [map_pow, sign_one] at this
  rcases Int.units_eq_one_or (sign (when P t hP p)) with hs | hs
  · exact hs
  · rw [hs, h.neg_one_pow] at this
    cases this

end

end QuDiet.Rev
