import Verif.Spec
import Verif.Radix
import Mathlib.Algebra.BigOperators.Group.List.Basic
import Mathlib.Algebra.BigOperators.Ring.List
import Mathlib.Tactic.Ring
import Mathlib.Tactic.Linarith

/-! # Lemmas about level lists and positional values -/

namespace QuDiet.Spec

theorem fits_nil {s : List Nat} : Fits [] s ↔ s = [] := by
  constructor
  · rintro ⟨h, _⟩; simpa using h
  · rintro rfl; exact ⟨rfl, by simp⟩

theorem fits_cons {d : Nat} {ds : List Nat} {s : List Nat} :
    Fits (d :: ds) s ↔ ∃ k t, s = k :: t ∧ k < d ∧ Fits ds t := by
  constructor
  · rintro ⟨hl, h⟩
    cases s with
    | nil => simp at hl
    | cons k t =>
      refine ⟨k, t, rfl, h 0 (by simp) (by simp), by simpa using hl, ?_⟩
      intro i h1 h2
      exact h (i + 1) (by simpa using h1) (by simpa using h2)
  · rintro ⟨k, t, rfl, hk, hl, h⟩
    refine ⟨by simp [hl], ?_⟩
    intro i h1 h2
    cases i with
    | zero => exact hk
    | succ i => exact h i (by simpa using h1) (by simpa using h2)

theorem fits_cons' {d k : Nat} {ds t : List Nat} :
    Fits (d :: ds) (k :: t) ↔ k < d ∧ Fits ds t := by
  rw [fits_cons]
  constructor
  · rintro ⟨k', t', h, h1, h2⟩
    cases h
    exact ⟨h1, h2⟩
  · rintro ⟨h1, h2⟩
    exact ⟨k, t, rfl, h1, h2⟩

theorem Fits.length {ds s : List Nat} (h : Fits ds s) : s.length = ds.length := h.1

theorem mem_states {ds s : List Nat} : s ∈ states ds ↔ Fits ds s := by
  induction ds generalizing s with
  | nil => simp [states, fits_nil]
  | cons d ds ih =>
    simp only [states, List.mem_flatMap, List.mem_range, List.mem_map, fits_cons]
    constructor
    · rintro ⟨k, hk, t, ht, rfl⟩
      exact ⟨k, t, rfl, hk, ih.1 ht⟩
    · rintro ⟨k, t, rfl, hk, ht⟩
      exact ⟨k, hk, t, ih.2 ht, rfl⟩

theorem length_of_mem {ds s : List Nat} (h : s ∈ states ds) : s.length = ds.length :=
  (mem_states.1 h).1

theorem value_lt {ds s : List Nat} (h : Fits ds s) : value ds s < ds.prod := by
  induction ds generalizing s with
  | nil => simp [value]
  | cons d ds ih =>
    obtain ⟨k, t, rfl, hk, ht⟩ := fits_cons.1 h
    have := ih ht
    simp only [value, List.prod_cons]
    calc k * ds.prod + value ds t < k * ds.prod + ds.prod := by omega
      _ = (k + 1) * ds.prod := by ring
      _ ≤ d * ds.prod := Nat.mul_le_mul_right _ hk

theorem value_inj {ds s t : List Nat} (hs : Fits ds s) (ht : Fits ds t)
    (h : value ds s = value ds t) : s = t := by
  induction ds generalizing s t with
  | nil => rw [fits_nil.1 hs, fits_nil.1 ht]
  | cons d ds ih =>
    obtain ⟨k, s, rfl, hk, hs⟩ := fits_cons.1 hs
    obtain ⟨l, t, rfl, hl, ht'⟩ := fits_cons.1 ht
    clear ht
    have ht := ht'
    simp only [value] at h
    have h1 := value_lt hs
    have h2 := value_lt ht
    have hk' : k = l := by
      have e1 : (k * ds.prod + value ds s) / ds.prod = k := by
        rw [Nat.mul_comm, Nat.mul_add_div (by omega), Nat.div_eq_of_lt h1, Nat.add_zero]
      have e2 : (l * ds.prod + value ds t) / ds.prod = l := by
        rw [Nat.mul_comm, Nat.mul_add_div (by omega), Nat.div_eq_of_lt h2, Nat.add_zero]
      rw [← e1, ← e2, h]
    subst hk'
    rw [ih hs ht (by omega)]

theorem map_value_states (ds : List Nat) : (states ds).map (value ds) = List.range ds.prod := by
  induction ds with
  | nil => simp [states, value]
  | cons d ds ih =>
    simp only [states, List.map_flatMap, List.map_map, List.prod_cons]
    have : ∀ k, (states ds).map (value (d :: ds) ∘ (k :: ·)) = (List.range ds.prod).map (k * ds.prod + ·) := by
      intro k
      rw [← ih, List.map_map]
      rfl
    simp only [this]
    clear this ih
    induction d with
    | zero => simp
    | succ d ih =>
      rw [List.range_succ, List.flatMap_append, ih, Nat.succ_mul, List.range_add]
      simp

theorem length_states (ds : List Nat) : (states ds).length = ds.prod := by
  have := congrArg List.length (map_value_states ds)
  simpa using this

theorem value_getElem {ds : List Nat} {i : Nat} (h : i < (states ds).length) :
    value ds (states ds)[i] = i := by
  have h1 := map_value_states ds
  have : ((states ds).map (value ds))[i]'(by simpa using h) = i := by
    simp only [h1, List.getElem_range]
  simpa using this

theorem getElem?_value {ds s : List Nat} (h : Fits ds s) : (states ds)[value ds s]? = some s := by
  have hlt : value ds s < (states ds).length := by rw [length_states]; exact value_lt h
  rw [List.getElem?_eq_getElem hlt]
  congr 1
  apply value_inj (mem_states.1 (List.getElem_mem hlt)) h
  exact value_getElem hlt

theorem getD_value {ds s : List Nat} (h : Fits ds s) (x : List Nat) :
    (states ds).getD (value ds s) x = s := by
  simp [List.getD_eq_getElem?_getD, getElem?_value h]

theorem nodup_states (ds : List Nat) : (states ds).Nodup := by
  have : ((states ds).map (value ds)).Nodup := by rw [map_value_states]; exact List.nodup_range
  exact List.Pairwise.of_map _ (fun a b h e => h (by rw [e])) this

theorem exists_value {ds : List Nat} {i : Nat} (h : i < ds.prod) :
    ∃ s, Fits ds s ∧ value ds s = i := by
  have h' : i < (states ds).length := by rwa [length_states]
  exact ⟨(states ds)[i], mem_states.1 (List.getElem_mem h'), value_getElem h'⟩

theorem sum_range_prod {M : Type} [AddMonoid M] (ds : List Nat) (f : Nat → M) :
    ((List.range ds.prod).map f).sum = ((states ds).map fun s => f (value ds s)).sum := by
  rw [← map_value_states, List.map_map]; rfl

theorem states_append (a b : List Nat) :
    states (a ++ b) = (states a).flatMap fun s => (states b).map (s ++ ·) := by
  induction a with
  | nil => simp [states]
  | cons d a ih =>
    simp only [List.cons_append, states, ih, List.map_flatMap, List.map_map, List.flatMap_assoc,
      List.flatMap_map]
    rfl

theorem fits_append {a b s t : List Nat} (hl : s.length = a.length) :
    Fits (a ++ b) (s ++ t) ↔ Fits a s ∧ Fits b t := by
  induction a generalizing s with
  | nil =>
    have : s = [] := by simpa using hl
    subst this
    simp [fits_nil]
  | cons d a ih =>
    cases s with
    | nil => simp at hl
    | cons k s =>
      simp only [List.cons_append, fits_cons']
      rw [ih (by simpa using hl), and_assoc]

theorem Fits.split {a b s : List Nat} (h : Fits (a ++ b) s) :
    Fits a (s.take a.length) ∧ Fits b (s.drop a.length) := by
  have hl : (s.take a.length).length = a.length := by
    have := h.1
    simp at this ⊢
    omega
  rw [← List.take_append_drop a.length s] at h
  exact (fits_append hl).1 h

theorem value_append {a b s t : List Nat} (hl : s.length = a.length) :
    value (a ++ b) (s ++ t) = value a s * b.prod + value b t := by
  induction a generalizing s with
  | nil =>
    have : s = [] := by simpa using hl
    subst this
    simp [value]
  | cons d a ih =>
    cases s with
    | nil => simp at hl
    | cons k s =>
      simp only [List.cons_append, value, List.prod_append]
      rw [ih (by simpa using hl)]
      ring

theorem value_append_div {a b s t : List Nat} (hl : s.length = a.length) (ht : Fits b t) :
    value (a ++ b) (s ++ t) / b.prod = value a s := by
  have := value_lt ht
  rw [value_append hl, Nat.mul_comm, Nat.mul_add_div (by omega), Nat.div_eq_of_lt this, Nat.add_zero]

theorem value_append_mod {a b s t : List Nat} (hl : s.length = a.length) (ht : Fits b t) :
    value (a ++ b) (s ++ t) % b.prod = value b t := by
  have := value_lt ht
  rw [value_append hl, Nat.mul_comm, Nat.mul_add_mod, Nat.mod_eq_of_lt this]

@[simp] theorem value_singleton (d k : Nat) : value [d] [k] = k := by simp [value]

theorem states_singleton (d : Nat) : states [d] = (List.range d).map fun k => [k] := by
  simp [states]
  rw [List.flatMap_def]
  induction List.range d <;> simp_all

theorem fits_singleton {d : Nat} {s : List Nat} : Fits [d] s ↔ ∃ k, s = [k] ∧ k < d := by
  rw [fits_cons]
  constructor
  · rintro ⟨k, t, rfl, hk, ht⟩
    rw [fits_nil] at ht
    subst ht
    exact ⟨k, rfl, hk⟩
  · rintro ⟨k, rfl, hk⟩
    exact ⟨k, [], rfl, hk, fits_nil.2 rfl⟩

/-! ### Sums over level lists -/

theorem sum_flatMap {α M : Type} [AddMonoid M] (l : List α) (f : α → List M) :
    (l.flatMap f).sum = (l.map fun a => (f a).sum).sum := by
  induction l with
  | nil => simp
  | cons a l ih => simp [ih]

theorem sum_states_append {M : Type} [AddMonoid M] (a b : List Nat) (f : List Nat → M) :
    ((states (a ++ b)).map f).sum
      = ((states a).map fun s => ((states b).map fun t => f (s ++ t)).sum).sum := by
  rw [states_append, List.map_flatMap, sum_flatMap]
  simp [List.map_map, Function.comp_def]

theorem sum_comm {α β M : Type} [AddCommMonoid M] (l : List α) (m : List β) (f : α → β → M) :
    (l.map fun a => (m.map fun b => f a b).sum).sum
      = (m.map fun b => (l.map fun a => f a b).sum).sum := by
  induction l with
  | nil => simp
  | cons a l ih => simp [ih, List.sum_map_add]

theorem sum_ite_eq {α M : Type} [DecidableEq α] [AddCommMonoid M] (l : List α) (hl : l.Nodup) (a : α)
    (ha : a ∈ l) (f : α → M) : (l.map fun b => if a = b then f b else 0).sum = f a := by
  induction l with
  | nil => simp at ha
  | cons b l ih =>
    rw [List.map_cons, List.sum_cons]
    rw [List.nodup_cons] at hl
    by_cases h : a = b
    · subst h
      have : (l.map fun b => if a = b then f b else 0).sum = 0 := by
        apply List.sum_eq_zero
        intro x hx
        obtain ⟨c, hc, rfl⟩ := List.mem_map.1 hx
        rw [if_neg]
        rintro rfl
        exact hl.1 hc
      simp [this]
    · have ha' : a ∈ l := by simpa [h] using ha
      simp [h, ih hl.2 ha']

theorem map_congr_sum {α M : Type} [AddMonoid M] {l : List α} {f g : α → M}
    (h : ∀ a ∈ l, f a = g a) : (l.map f).sum = (l.map g).sum := by
  rw [List.map_congr_left h]

theorem sum_ite_zero {α M : Type} [AddCommMonoid M] (l : List α) (p : α → Prop) [DecidablePred p]
    (f : α → M) : (l.map fun a => if p a then f a else 0).sum = ((l.filter p).map f).sum := by
  induction l with
  | nil => simp
  | cons a l ih =>
    by_cases h : p a <;> simp [h, ih]

end QuDiet.Spec
