import Verif.Lemmas.Algebra
import Mathlib.LinearAlgebra.Matrix.NonsingularInverse

/-! # Locality of the gate effects, and what they preserve -/

namespace QuDiet
open Spec

section
variable {R : Type} [CommRing R]

/-- The level lists agree on the registers in `S`. -/
def Agree (S : Nat → Prop) (s t : List Nat) : Prop := ∀ r, S r → s.getD r 0 = t.getD r 0

/-- `F` reads and changes the registers in `S` only. -/
def LocalOn (dims : List Nat) (S : Nat → Prop) (F : State R → State R) : Prop :=
  ∃ (ι : Type) (l : List ι) (c : ι → List Nat → R) (g : ι → List Nat → List Nat),
    (∀ ψ s, Fits dims s → F ψ s = (l.map fun i => c i s * ψ (g i s)).sum) ∧
    (∀ i ∈ l, ∀ s, Fits dims s → Fits dims (g i s)) ∧
    (∀ i ∈ l, ∀ s t, Fits dims s → Fits dims t → Agree S s t →
      c i s = c i t ∧ Agree S (g i s) (g i t)) ∧
    (∀ i ∈ l, ∀ s, Fits dims s → Agree (fun r => ¬ S r) (g i s) s)

theorem fits_ext {dims s t : List Nat} (hs : Fits dims s) (ht : Fits dims t)
    (h : ∀ r, s.getD r 0 = t.getD r 0) : s = t := by
  apply List.ext_getElem
  · rw [hs.1, ht.1]
  · intro r h1 h2
    have := h r
    rw [List.getD_eq_getElem?_getD, List.getD_eq_getElem?_getD, List.getElem?_eq_getElem h1,
      List.getElem?_eq_getElem h2] at this
    exact this

theorem LocalOn.congr {dims : List Nat} {S : Nat → Prop} {F : State R → State R} (h : LocalOn dims S F)
    {ψ φ : State R} (he : EqOn dims ψ φ) : EqOn dims (F ψ) (F φ) := by
  obtain ⟨ι, l, c, g, h1, h2, _⟩ := h
  intro s hs
  rw [h1 ψ s hs, h1 φ s hs]
  apply map_congr_sum
  intro i hi
  rw [he _ (h2 i hi s hs)]

theorem LocalOn.comm {dims : List Nat} {S T : Nat → Prop} {F G : State R → State R}
    (hF : LocalOn dims S F) (hG : LocalOn dims T G) (hd : ∀ r, S r → ¬ T r) (ψ : State R) :
    EqOn dims (F (G ψ)) (G (F ψ)) := by
  obtain ⟨ι, l, c, g, f1, f2, f3, f4⟩ := hF
  obtain ⟨κ, m, c', g', g1, g2, g3, g4⟩ := hG
  intro s hs
  rw [f1 _ s hs, g1 _ s hs]
  have e1 : ∀ i ∈ l, c i s * G ψ (g i s)
      = (m.map fun j => c i s * (c' j s * ψ (g' j (g i s)))).sum := by
    intro i hi
    rw [g1 _ _ (f2 i hi s hs), ← List.sum_map_mul_left]
    apply map_congr_sum
    intro j hj
    rw [(g3 j hj (g i s) s (f2 i hi s hs) hs fun r hr => f4 i hi s hs r fun h => hd r h hr).1]
  have e2 : ∀ j ∈ m, c' j s * F ψ (g' j s)
      = (l.map fun i => c i s * (c' j s * ψ (g' j (g i s)))).sum := by
    intro j hj
    rw [f1 _ _ (g2 j hj s hs), ← List.sum_map_mul_left]
    apply map_congr_sum
    intro i hi
    have hi' := f2 i hi s hs
    have hj' := g2 j hj s hs
    have ag : Agree S (g' j s) s := fun r hr => g4 j hj s hs r fun h => hd r hr h
    have ag' : Agree T (g i s) s := fun r hr => f4 i hi s hs r fun h => hd r h hr
    rw [(f3 i hi (g' j s) s hj' hs ag).1]
    have : g i (g' j s) = g' j (g i s) := by
      apply fits_ext (f2 i hi _ hj') (g2 j hj _ hi')
      intro r
      by_cases hS : S r
      · rw [(f3 i hi (g' j s) s hj' hs ag).2 r hS, g4 j hj _ hi' r fun h => hd r hS h]
      · rw [f4 i hi _ hj' r hS]
        by_cases hT : T r
        · rw [(g3 j hj (g i s) s hi' hs ag').2 r hT]
        · rw [g4 j hj _ hs r hT, g4 j hj _ hi' r hT, f4 i hi _ hs r hS]
    rw [this]
    ring
  rw [map_congr_sum e1, map_congr_sum e2, sum_comm]

theorem local_onReg {dims : List Nat} {q : Nat} (hq : q < dims.length) (G : Nat → Nat → R) :
    LocalOn dims (fun r => q = r) (onReg (dims.getD q 0) q G) := by
  refine ⟨Nat, List.range (dims.getD q 0), fun k s => G (s.getD q 0) k, fun k s => s.set q k,
    fun _ _ _ => rfl, ?_, ?_, ?_⟩
  · intro k hk s hs
    exact fits_set hs q k (by simpa using hk)
  · intro k _ s t hs ht h
    refine ⟨by show G (s.getD q 0) k = G (t.getD q 0) k; rw [h q rfl], ?_⟩
    rintro _ rfl
    rw [getD_set_self (by rw [hs.1]; exact hq), getD_set_self (by rw [ht.1]; exact hq)]
  · intro k _ s _ r hr
    exact getD_set_ne hr

theorem controlled_set_iff {dims s cs : List Nat} {t k : Nat} {p : Int} (hs : Fits dims s) (ht : t < dims.length) :
    controlled dims cs t p (s.set t k) = s ↔
      (if ∀ c ∈ cs, (if t = c then k else s.getD c 0) + 1 = dims.getD c 0 then
        (((k : Int) + p) % (dims.getD t 0 : Int)).toNat else k) = s.getD t 0 := by
  have hl : t < s.length := by rw [hs.1]; exact ht
  have h1 : ∀ c, atTop dims c (s.set t k) ↔ (if t = c then k else s.getD c 0) + 1 = dims.getD c 0 := by
    intro c
    unfold atTop
    by_cases h : t = c
    · subst h; rw [getD_set_self hl, if_pos rfl]
    · rw [getD_set_ne h, if_neg h]
  have h2 : ∀ v, s.set t v = s ↔ v = s.getD t 0 := by
    intro v
    constructor
    · intro h
      have := congrArg (fun l => l.getD t 0) h
      simp only [getD_set_self hl] at this
      exact this
    · rintro rfl; exact set_getD_self hl
  unfold controlled bump
  simp only [h1]
  split
  · rw [getD_set_self hl, List.set_set, h2]
  · rw [h2]

theorem local_controlled {dims : List Nat} {cs : List Nat} {t : Nat} (ht : t < dims.length) (p : Int) :
    LocalOn dims (fun r => r ∈ cs ∨ t = r) (move (R := R) dims (controlled dims cs t p)) := by
  refine ⟨Nat, List.range (dims.getD t 0),
    fun k s => if controlled dims cs t p (s.set t k) = s then 1 else 0, fun k s => s.set t k,
    fun ψ s hs => move_controlled_local hs ht p ψ, ?_, ?_, ?_⟩
  · intro k hk s hs
    exact fits_set hs t k (by simpa using hk)
  · intro k _ s u hs hu h
    have h1 := controlled_set_iff (cs := cs) (k := k) (p := p) hs ht
    have h2 := controlled_set_iff (cs := cs) (k := k) (p := p) hu ht
    refine ⟨?_, ?_⟩
    · have e : (controlled dims cs t p (s.set t k) = s) ↔ (controlled dims cs t p (u.set t k) = u) := by
        rw [h1, h2, h t (.inr rfl)]
        have : (∀ c ∈ cs, (if t = c then k else s.getD c 0) + 1 = dims.getD c 0) ↔
            (∀ c ∈ cs, (if t = c then k else u.getD c 0) + 1 = dims.getD c 0) := by
          constructor
          · intro H c hc; rw [← h c (.inl hc)]; exact H c hc
          · intro H c hc; rw [h c (.inl hc)]; exact H c hc
        simp only [this]
      simp only [e]
    · intro r hr
      by_cases e : t = r
      · subst e
        rw [getD_set_self (by rw [hs.1]; exact ht), getD_set_self (by rw [hu.1]; exact ht)]
      · rw [getD_set_ne e, getD_set_ne e, h r hr]
  · intro k _ s _ r hr
    exact getD_set_ne fun e => hr (.inr e)

theorem getD_block {s m : List Nat} {lb len r : Nat} (hm : m.length = len) (hl : lb + len ≤ s.length) :
    (s.take lb ++ m ++ s.drop (lb + len)).getD r 0
      = if lb ≤ r ∧ r < lb + len then m.getD (r - lb) 0 else s.getD r 0 := by
  have h1 : (s.take lb).length = lb := by simp; omega
  split
  · next h => exact getD_mid h1 h.1 (by omega)
  · next h =>
    simp only [List.getD_eq_getElem?_getD]
    by_cases hr : r < lb
    · rw [List.append_assoc, List.getElem?_append_left (by omega), List.getElem?_take_of_lt hr]
    · rw [List.getElem?_append_right (by simp [hm]; omega), List.getElem?_drop]
      congr 2
      simp [hm]; omega

theorem local_onBlock {dims : List Nat} {lb len : Nat} (hle : lb + len ≤ dims.length) (U : Nat → Nat → R) :
    LocalOn dims (fun r => lb ≤ r ∧ r < lb + len) (onBlock dims lb len U) := by
  have hml : ∀ m ∈ states (slice dims lb len), m.length = len := by
    intro m hm
    rw [length_of_mem hm, slice_length hle]
  refine ⟨List Nat, states (slice dims lb len),
    fun m s => U (value (slice dims lb len) ((s.drop lb).take len)) (value (slice dims lb len) m),
    fun m s => s.take lb ++ m ++ s.drop (lb + len), fun _ _ _ => rfl, ?_, ?_, ?_⟩
  · intro m hm s hs
    have hsl : (s.take lb).length = (dims.take lb).length := by simp [hs.1]
    rw [dims_split dims lb len] at hs ⊢
    have h12 := hs.split
    have h1 := h12.1.split
    rw [fits_append (by simp [hml m hm, hs.1]; omega), fits_append (by simpa [hs.1] using hsl)]
    have e1 : (dims.take lb).length = lb := by simp; omega
    have e2 : (dims.take lb ++ slice dims lb len).length = lb + len := by simp; omega
    rw [e2] at h12
    rw [e2, e1, List.take_take, Nat.min_eq_left (by omega)] at h1
    exact ⟨⟨h1.1, mem_states.1 hm⟩, h12.2⟩
  · intro m hm s t hs ht h
    refine ⟨?_, ?_⟩
    · have : (s.drop lb).take len = (t.drop lb).take len := by
        apply List.ext_getElem
        · simp [hs.1, ht.1]
        · intro i h1 h2
          have := h (lb + i) ⟨by omega, by simp at h1; omega⟩
          simp only [List.length_take, List.length_drop] at h1 h2
          simp only [List.getElem_take, List.getElem_drop]
          simpa [List.getD_eq_getElem?_getD, show lb + i < s.length by omega,
            show lb + i < t.length by omega] using this
      simp only [this]
    · intro r hr
      rw [getD_block (hml m hm) (by rw [hs.1]; exact hle), getD_block (hml m hm) (by rw [ht.1]; exact hle),
        if_pos hr, if_pos hr]
  · intro m hm s hs r hr
    rw [getD_block (hml m hm) (by rw [hs.1]; exact hle), if_neg hr]

theorem LocalOn.mono {dims : List Nat} {S T : Nat → Prop} {F : State R → State R} (h : LocalOn dims S F)
    (hST : ∀ r, S r ↔ T r) : LocalOn dims T F := by
  have : S = T := by funext r; exact propext (hST r)
  exact this ▸ h

end

section
variable {R : Type} [CommRing R] [StarRing R] [DecidableEq R] [UnitaryCheck R]

theorem toNat_eq_iff {dims : List Nat} {q : Int} (h : InRange dims q) (r : Nat) :
    q.toNat = r ↔ q = r := by
  have := h.1
  omega

theorem foldl_min_le (l : List Int) (a : Int) : l.foldl min a ≤ a ∧ ∀ x ∈ l, l.foldl min a ≤ x := by
  induction l generalizing a with
  | nil => simp
  | cons b l ih =>
    have := ih (min a b)
    refine ⟨by simp only [List.foldl_cons]; omega, ?_⟩
    intro x hx
    rcases List.mem_cons.1 hx with rfl | hx
    · simp only [List.foldl_cons]; omega
    · exact this.2 x hx

theorem foldl_max_ge (l : List Int) (a : Int) : a ≤ l.foldl max a ∧ ∀ x ∈ l, x ≤ l.foldl max a := by
  induction l generalizing a with
  | nil => simp
  | cons b l ih =>
    have := ih (max a b)
    refine ⟨by simp only [List.foldl_cons]; omega, ?_⟩
    intro x hx
    rcases List.mem_cons.1 hx with rfl | hx
    · simp only [List.foldl_cons]; omega
    · exact this.2 x hx

theorem foldl_min_mem (l : List Int) (a : Int) : l.foldl min a = a ∨ l.foldl min a ∈ l := by
  induction l generalizing a with
  | nil => simp
  | cons b l ih =>
    rcases ih (min a b) with h | h
    · by_cases hab : a ≤ b
      · left; simp only [List.foldl_cons]; omega
      · right; simp only [List.foldl_cons, h]; rw [Int.min_eq_right (by omega)]; simp
    · right; simp only [List.foldl_cons]; exact List.mem_cons_of_mem _ h

theorem foldl_max_mem (l : List Int) (a : Int) : l.foldl max a = a ∨ l.foldl max a ∈ l := by
  induction l generalizing a with
  | nil => simp
  | cons b l ih =>
    rcases ih (max a b) with h | h
    · by_cases hab : b ≤ a
      · left; simp only [List.foldl_cons]; omega
      · right; simp only [List.foldl_cons, h]; rw [Int.max_eq_right (by omega)]; simp
    · right; simp only [List.foldl_cons]; exact List.mem_cons_of_mem _ h

theorem span_in {dims : List Nat} {qs : List Int} (hne : qs ≠ []) (h : ∀ q ∈ qs, InRange dims q) :
    (spanOf qs).1 + (spanOf qs).2 ≤ dims.length ∧
      ∀ r : Nat, ((spanOf qs).1 ≤ r ∧ r < (spanOf qs).1 + (spanOf qs).2) ↔
        ((∃ a ∈ qs, a ≤ r) ∧ ∃ b ∈ qs, (r : Int) ≤ b) := by
  cases qs with
  | nil => exact absurd rfl hne
  | cons q0 qs =>
    have h1 := foldl_min_le (q0 :: qs) q0
    have h2 := foldl_max_ge (q0 :: qs) q0
    have m1 : (q0 :: qs).foldl min q0 ∈ q0 :: qs := by
      rcases foldl_min_mem (q0 :: qs) q0 with e | e
      · rw [e]; simp
      · exact e
    have m2 : (q0 :: qs).foldl max q0 ∈ q0 :: qs := by
      rcases foldl_max_mem (q0 :: qs) q0 with e | e
      · rw [e]; simp
      · exact e
    have r1 := h _ m1
    have r2 := h _ m2
    unfold InRange at r1 r2
    simp only [spanOf, List.headD_cons]
    refine ⟨by omega, ?_⟩
    intro r
    constructor
    · intro hr
      exact ⟨⟨_, m1, by omega⟩, ⟨_, m2, by omega⟩⟩
    · rintro ⟨⟨a, ha, ha'⟩, ⟨b, hb, hb'⟩⟩
      have := h1.2 a ha
      have := h2.2 b hb
      omega

/-- Every valid call reads and changes only the registers that it touches. -/
theorem meaning_local (N : Numerics R) {dims : List Nat} {k : Call R} (hk : k.Valid dims) :
    LocalOn dims k.touches (meaning N dims k) := by
  cases k with
  | h q k =>
    have hq := hk.1
    have : q.toNat < dims.length := by have := hq.1; have := hq.2; omega
    exact (local_onReg this _).mono (toNat_eq_iff hq)
  | z q k =>
    have hq := hk.1
    have : q.toNat < dims.length := by have := hq.1; have := hq.2; omega
    exact (local_onReg this _).mono (toNat_eq_iff hq)
  | x q k p =>
    have hq := hk.1
    have : q.toNat < dims.length := by have := hq.1; have := hq.2; omega
    have h := (local_controlled (R := R) (cs := []) this p).mono (T := (Call.x (R := R) q k p).touches) (by
      intro r; simp [Call.touches, toNat_eq_iff hq])
    rw [← bump_eq_controlled] at h
    exact h
  | cx c t p =>
    have hc := hk.1
    have ht := hk.2
    have : t.toNat < dims.length := by have := ht.1; have := ht.2; omega
    exact (local_controlled (R := R) (cs := [c.toNat]) this p).mono (by
      intro r
      simp only [Call.touches, List.mem_singleton, toNat_eq_iff ht, ← toNat_eq_iff hc, eq_comm])
  | toffoli cs t p =>
    have ht := hk.1
    have hc := hk.2.1
    have : t.toNat < dims.length := by have := ht.1; have := ht.2; omega
    exact (local_controlled (R := R) (cs := cs.map Int.toNat) this p).mono (by
      intro r
      simp only [Call.touches, List.mem_map, toNat_eq_iff ht]
      apply or_congr _ Iff.rfl
      constructor
      · rintro ⟨a, ha, rfl⟩
        have := (hc a ha).1
        rw [Int.toNat_of_nonneg this]; exact ha
      · intro h; exact ⟨_, h, by simp⟩)
  | gate U q k =>
    cases q with
    | int q =>
      have hq := hk.1
      have : q.toNat < dims.length := by have := hq.1; have := hq.2; omega
      exact (local_onReg this _).mono (toNat_eq_iff hq)
    | list qs =>
      obtain ⟨h1, h2⟩ := span_in hk.1 hk.2.1
      exact (local_onBlock h1 _).mono h2
  | measure q => exact hk.elim
  | measureAll => exact hk.elim

end

end QuDiet
