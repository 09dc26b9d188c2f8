import Verif.Lemmas.GateMats
import Verif.Semantics

/-! # The Toffoli matrix and the unitarity check -/

namespace QuDiet
open Spec

variable {R : Type} [CommRing R]

theorem pyMin_spec {l : List Int} (h : l ≠ []) :
    ∃ m, pyMin l = .ok m ∧ m ∈ l ∧ ∀ x ∈ l, m ≤ x := by
  cases l with
  | nil => exact absurd rfl h
  | cons a l =>
    refine ⟨_, rfl, ?_⟩
    clear h
    induction l generalizing a with
    | nil => simp
    | cons b l ih =>
      obtain ⟨h1, h2⟩ := ih (min a b)
      rw [List.foldl_cons]
      constructor
      · rcases List.mem_cons.1 h1 with h | h
        · rw [h]
          rcases le_total a b with hab | hab
          · simp [min_eq_left hab]
          · simp [min_eq_right hab]
        · simp [h]
      · have hm := h2 (min a b) (by simp)
        intro x hx
        rcases List.mem_cons.1 hx with rfl | hx
        · omega
        · rcases List.mem_cons.1 hx with rfl | hx
          · omega
          · exact h2 x (by simp [hx])

theorem pyMax_spec {l : List Int} (h : l ≠ []) :
    ∃ m, pyMax l = .ok m ∧ m ∈ l ∧ ∀ x ∈ l, x ≤ m := by
  cases l with
  | nil => exact absurd rfl h
  | cons a l =>
    refine ⟨_, rfl, ?_⟩
    clear h
    induction l generalizing a with
    | nil => simp
    | cons b l ih =>
      obtain ⟨h1, h2⟩ := ih (max a b)
      rw [List.foldl_cons]
      constructor
      · rcases List.mem_cons.1 h1 with h | h
        · rw [h]
          rcases le_total a b with hab | hab
          · simp [max_eq_right hab]
          · simp [max_eq_left hab]
        · simp [h]
      · have hm := h2 (max a b) (by simp)
        intro x hx
        rcases List.mem_cons.1 hx with rfl | hx
        · omega
        · rcases List.mem_cons.1 hx with rfl | hx
          · omega
          · exact h2 x (by simp [hx])

theorem dimAt_nat {dims : List Nat} {q : Int} (h0 : 0 ≤ q) (h1 : q < dims.length) :
    dimAt dims q = dims[q.toNat]'(by omega) := by
  unfold dimAt
  rw [Int.emod_eq_of_lt h0 h1]
  have : q.toNat < dims.length := by omega
  simp [List.getD_eq_getElem?_getD, this]

theorem pyGet_dimAt {dims : List Nat} {q : Int} (h0 : -(dims.length : Int) ≤ q) (h1 : q < dims.length) :
    pyGet dims q = .ok (dimAt dims q) := by
  unfold pyGet dimAt
  rw [pyIndex_ok h0 h1]
  have : (q % (dims.length : Int)).toNat < dims.length := emod_toNat_lt _ (by omega)
  simp [List.getD_eq_getElem?_getD, this]

theorem pyGet_out {dims : List Nat} {q : Int} (h : q < -(dims.length : Int) ∨ (dims.length : Int) ≤ q) :
    pyGet dims q = .error .index := by
  unfold pyGet
  rw [pyIndex_error h]

theorem pyRange_mapM_get {dims : List Nat} {lb ub : Int} (h0 : -(dims.length : Int) ≤ lb)
    (h2 : ub < dims.length) :
    (pyRange lb (ub + 1)).mapM (pyGet dims) = .ok ((pyRange lb (ub + 1)).map (dimAt dims)) := by
  apply mapM_ok
  intro a ha
  unfold pyRange at ha
  obtain ⟨k, hk, rfl⟩ := List.mem_map.1 ha
  rw [List.mem_range] at hk
  exact pyGet_dimAt (by omega) (by omega)

theorem mem_pyRange {a b x : Int} : x ∈ pyRange a b ↔ a ≤ x ∧ x < b := by
  unfold pyRange
  rw [List.mem_map]
  constructor
  · rintro ⟨k, hk, rfl⟩
    rw [List.mem_range] at hk
    omega
  · intro h
    exact ⟨(x - a).toNat, by rw [List.mem_range]; omega, by omega⟩

theorem pyRange_dims {dims : List Nat} {lb ub : Int} (h0 : 0 ≤ lb) (h2 : ub < dims.length) :
    (pyRange lb (ub + 1)).map (dimAt dims) = (dims.drop lb.toNat).take (ub + 1 - lb).toNat := by
  apply List.ext_getElem?
  intro i
  unfold pyRange
  rw [List.map_map]
  by_cases hi : i < (ub + 1 - lb).toNat
  · rw [List.getElem?_map, List.getElem?_range hi, List.getElem?_take, if_pos hi, List.getElem?_drop]
    have : lb.toNat + i < dims.length := by omega
    have e : (lb + (i : Int)).toNat = lb.toNat + i := by omega
    simp only [Function.comp, Option.map_some]
    rw [dimAt_nat (by omega) (by omega)]
    simp [this, e]
  · rw [List.getElem?_eq_none (by simp; omega), List.getElem?_eq_none (by simp; omega)]

/-- The matrix moves `b` to `f b` on the states of `ds`. -/
def Moves (ds : List Nat) (M : Mat R) (f : List Nat → List Nat) : Prop :=
  M.rows = ds.prod ∧ M.cols = ds.prod ∧
    ∀ a b, Fits ds a → Fits ds b → M.e (value ds a) (value ds b) = if f b = a then 1 else 0

theorem toffoliDm_ok {dims : List Nat} {cs : List Int} {t p lb ub : Int}
    (hmin : pyMin (cs ++ [t]) = .ok lb) (hmax : pyMax (cs ++ [t]) = .ok ub)
    (hlb : -(dims.length : Int) ≤ lb) (hub : ub < dims.length) (hlo : ∀ x ∈ cs ++ [t], lb ≤ x)
    (hhi : ∀ x ∈ cs ++ [t], x ≤ ub) :
    ∃ M : Mat R, toffoliDm cs t p dims = .ok (M, lb, ub, (pyRange lb (ub + 1)).map (dimAt dims)) ∧
      Moves ((pyRange lb (ub + 1)).map (dimAt dims)) M
        (controlled ((pyRange lb (ub + 1)).map (dimAt dims))
          (cs.map fun c => (c - lb).toNat) (t - lb).toNat p) := by
  have ht1 := hlo t (by simp)
  have ht2 := hhi t (by simp)
  set sub := (pyRange lb (ub + 1)).map (dimAt dims) with hsub
  have hsl : sub.length = (ub + 1 - lb).toNat := by rw [hsub]; simp [pyRange]
  have htb : (t - lb).toNat < sub.length := by omega
  have hdt : sub.getD (t - lb).toNat 0 = dimAt dims t := by
    have e : lb + (t - lb).toNat = t := by omega
    have hr : (t - lb).toNat < (ub + 1 - lb).toNat := by omega
    rw [hsub, List.getD_eq_getElem?_getD]
    unfold pyRange
    rw [List.map_map, List.getElem?_map, List.getElem?_range hr]
    simp only [Function.comp, Option.map_some, Option.getD_some, e]
  let f := controlled sub (cs.map fun c => (c - lb).toNat) (t - lb).toNat p
  have hstate : ∀ i, i < sub.prod → Fits sub ((states sub).getD i []) := by
    intro i hi
    have : i < (states sub).length := by rwa [length_states]
    rw [List.getD_eq_getElem?_getD, List.getElem?_eq_getElem this]
    exact mem_states.1 (List.getElem_mem this)
  have hrepl : (List.range sub.prod).mapM (toffoliRow cs t p lb sub (dimAt dims t) (states sub))
      = .ok ((List.range sub.prod).map fun idx => value sub (f ((states sub).getD idx []))) := by
    apply mapM_ok
    intro idx hidx
    rw [List.mem_range] at hidx
    have hf := hstate idx hidx
    unfold toffoliRow
    simp only
    have hcond : (cs.all (fun c => ((states sub).getD idx []).getD (c - lb).toNat 0 + 1
        == sub.getD (c - lb).toNat 0) = true) ↔
        ∀ c ∈ cs.map (fun c => (c - lb).toNat), atTop sub c ((states sub).getD idx []) := by
      simp [atTop]
    by_cases h : ∀ c ∈ cs.map (fun c => (c - lb).toNat), atTop sub c ((states sub).getD idx [])
    · rw [if_pos (hcond.2 h), ← hdt]
      have hb := fits_bump hf _ htb p
      have : bump sub (t - lb).toNat p ((states sub).getD idx []) =
        ((states sub).getD idx []).set (t - lb).toNat
          (((((states sub).getD idx []).getD (t - lb).toNat 0 : Int) + p) %
            (sub.getD (t - lb).toNat 0 : Int)).toNat := rfl
      rw [← this, getIndex_states hb]
      simp only [f, controlled, if_pos h]
    · rw [if_neg (fun hc => h (hcond.1 hc))]
      simp only [f, controlled, if_neg h]
      have : idx < (states sub).length := by rwa [length_states]
      rw [List.getD_eq_getElem?_getD, List.getElem?_eq_getElem this, Option.getD_some, value_getElem]
  refine ⟨{ rows := sub.prod, cols := sub.prod,
            e := fun i j => if ((List.range sub.prod).map fun idx =>
              value sub (f ((states sub).getD idx []))).getD j 0 = i then 1 else 0 }, ?_, ?_⟩
  · unfold toffoliDm
    simp only [hmin, hmax, bind, Except.bind, pyRange_mapM_get hlb hub,
      pyGet_dimAt (dims := dims) (q := t) (by omega) (by omega), generateCombinations_eq, ← hsub]
    rw [hrepl]
  · refine ⟨rfl, rfl, ?_⟩
    intro a b ha hb
    have hv := value_lt hb
    have e : ((List.range sub.prod).map fun idx => value sub (f ((states sub).getD idx []))).getD
        (value sub b) 0 = value sub (f b) := by
      rw [List.getD_eq_getElem?_getD, List.getElem?_map, List.getElem?_range hv]
      simp [getElem?_value hb]
    simp only [e]
    have hfb : Fits sub (f b) := fits_controlled hb _ _ htb p
    by_cases h : f b = a
    · rw [if_pos (by rw [h]), if_pos h]
    · rw [if_neg (fun hc => h (value_inj hfb ha hc)), if_neg h]

/-! ### Unitarity of moving matrices -/

section
variable [StarRing R] [DecidableEq R] [UnitaryCheck R]

omit [StarRing R] [DecidableEq R] [UnitaryCheck R] in
theorem Moves.zeroOne {ds : List Nat} {M : Mat R} {f : List Nat → List Nat} (h : Moves ds M f) : M.ZeroOne := by
  obtain ⟨h1, h2, h3⟩ := h
  intro i hi j hj
  rw [h1] at hi
  rw [h2] at hj
  obtain ⟨a, ha, rfl⟩ := exists_value hi
  obtain ⟨b, hb, rfl⟩ := exists_value hj
  rw [h3 a b ha hb]
  split <;> simp

theorem Moves.unitary {ds : List Nat} {M : Mat R} {f g : List Nat → List Nat} (h : Moves ds M f)
    (hfg : ∀ s, Fits ds s → Fits ds (g s) ∧ f (g s) = s)
    (hgf : ∀ s, Fits ds s → g (f s) = s) : M.isUnitary = true := by
  refine UnitaryCheck.yes M h.zeroOne ?_
  obtain ⟨h1, h2, h3⟩ := h
  intro i hi j hj
  unfold Mat.gram
  rw [h1] at hi hj
  obtain ⟨a, ha, rfl⟩ := exists_value hi
  obtain ⟨b, hb, rfl⟩ := exists_value hj
  rw [h2, sum_range_prod]
  have : ∀ k ∈ states ds, M.e (value ds a) (value ds k) * star (M.e (value ds b) (value ds k))
      = if g a = k then (if value ds a = value ds b then 1 else 0) else 0 := by
    intro k hk
    have fk := mem_states.1 hk
    rw [h3 a k ha fk, h3 b k hb fk]
    by_cases hak : f k = a
    · have : g a = k := by rw [← hak, hgf k fk]
      rw [if_pos hak, if_pos this, one_mul]
      by_cases hab : a = b
      · subst hab
        simp [hak]
      · have hv : value ds a ≠ value ds b := fun hv => hab (value_inj ha hb hv)
        rw [if_neg hv, if_neg (fun hc => hab (hak.symm.trans hc)), star_zero]
    · rw [if_neg hak, zero_mul, if_neg]
      rintro rfl
      exact hak (hfg a ha).2
  rw [map_congr_sum this, sum_ite_eq _ (nodup_states ds) _ (mem_states.2 (hfg a ha).1)]

theorem Moves.not_unitary {ds : List Nat} {M : Mat R} {f : List Nat → List Nat}
    (h : Moves ds M f) (a : List Nat) (ha : Fits ds a) (hf : ∀ s, Fits ds s → f s ≠ a) :
    M.isUnitary = false := by
  refine UnitaryCheck.no M h.zeroOne ⟨value ds a, ?_, ?_⟩
  · rw [h.1]; exact value_lt ha
  · intro j hj
    rw [h.2.1] at hj
    obtain ⟨k, hk, rfl⟩ := exists_value hj
    rw [h.2.2 a k ha hk, if_neg (hf k hk)]

end

/-! ### Inverses of level arithmetic -/

theorem bump_bump {ds s : List Nat} (h : Fits ds s) (q : Nat) (hq : q < ds.length) (a b : Int) :
    bump ds q b (bump ds q a s) = bump ds q (a + b) s := by
  have hd := fits_getD_lt h q hq
  have hq' : q < s.length := by rw [h.1]; exact hq
  unfold bump
  rw [List.set_set]
  congr 2
  have : (s.set q (((s.getD q 0 : Int) + a) % (ds.getD q 0 : Int)).toNat).getD q 0
      = (((s.getD q 0 : Int) + a) % (ds.getD q 0 : Int)).toNat := by
    rw [List.getD_eq_getElem?_getD, List.getElem?_set_self hq']; rfl
  rw [this, Int.toNat_of_nonneg (Int.emod_nonneg _ (by omega)), Int.emod_add_emod, Int.add_assoc]

theorem bump_of_dvd {ds s : List Nat} (h : Fits ds s) (q : Nat) (hq : q < ds.length) (p : Int)
    (hp : p % (ds.getD q 0 : Int) = 0) : bump ds q p s = s := by
  have hd := fits_getD_lt h q hq
  have hq' : q < s.length := by rw [h.1]; exact hq
  unfold bump
  have : (((s.getD q 0 : Int) + p) % (ds.getD q 0 : Int)).toNat = s.getD q 0 := by
    rw [Int.add_emod, hp, Int.add_zero, Int.emod_emod_of_dvd _ (dvd_refl _),
      Int.emod_eq_of_lt (by omega) (by omega)]
    simp
  rw [this, List.getD_eq_getElem?_getD, List.getElem?_eq_getElem hq', Option.getD_some,
    List.set_getElem_self]

theorem bump_getD_ne {ds s : List Nat} {q c : Nat} (h : c ≠ q) (p : Int) :
    (bump ds q p s).getD c 0 = s.getD c 0 := by
  unfold bump
  rw [List.getD_eq_getElem?_getD, List.getElem?_set_ne (Ne.symm h), List.getD_eq_getElem?_getD]

theorem bump_getD_self {ds s : List Nat} {q : Nat} (h : q < s.length) (p : Int) :
    (bump ds q p s).getD q 0 = (((s.getD q 0 : Int) + p) % (ds.getD q 0 : Int)).toNat := by
  unfold bump
  rw [List.getD_eq_getElem?_getD, List.getElem?_set_self h]; rfl

theorem controlled_controlled {ds s : List Nat} (h : Fits ds s) (cs : List Nat) (t : Nat)
    (ht : t < ds.length) (htc : t ∉ cs) (a b : Int) :
    controlled ds cs t b (controlled ds cs t a s) = controlled ds cs t (a + b) s := by
  by_cases hc : ∀ c ∈ cs, atTop ds c s
  · have hc' : ∀ c ∈ cs, atTop ds c (bump ds t a s) := by
      intro c hcm
      unfold atTop
      rw [bump_getD_ne (q := t) (c := c) (by rintro rfl; exact htc hcm)]
      exact hc c hcm
    rw [controlled, controlled, controlled, if_pos hc, if_pos hc', if_pos hc, bump_bump h t ht]
  · rw [controlled, controlled, controlled, if_neg hc, if_neg hc, if_neg hc]

theorem controlled_of_dvd {ds s : List Nat} (h : Fits ds s) (cs : List Nat) (t : Nat)
    (ht : t < ds.length) (p : Int) (hp : p % (ds.getD t 0 : Int) = 0) :
    controlled ds cs t p s = s := by
  unfold controlled
  split
  · exact bump_of_dvd h t ht p hp
  · rfl

theorem controlled_inv {ds : List Nat} (cs : List Nat) (t : Nat) (ht : t < ds.length)
    (p : Int) (h : t ∉ cs ∨ p % (ds.getD t 0 : Int) = 0) {s : List Nat} (hs : Fits ds s) :
    controlled ds cs t (-p) (controlled ds cs t p s) = s := by
  rcases h with h | h
  · rw [controlled_controlled hs cs t ht h]
    exact controlled_of_dvd hs cs t ht _ (by simp)
  · rw [controlled_of_dvd hs cs t ht p h]
    exact controlled_of_dvd hs cs t ht _ (Int.emod_eq_zero_of_dvd ((Int.dvd_of_emod_eq_zero h).neg_right))

/-- With the target among the controls, the state with all controls at the top is not reached. -/
theorem controlled_not_onto {ds : List Nat} (cs : List Nat) (t : Nat) (ht : t < ds.length)
    (p : Int) (htc : t ∈ cs) (hp : p % (ds.getD t 0 : Int) ≠ 0) (a : List Nat) (ha : Fits ds a)
    (htop : ∀ c ∈ cs, atTop ds c a) {s : List Nat} (hs : Fits ds s) :
    controlled ds cs t p s ≠ a := by
  intro he
  have hat := htop t htc
  have hq' : t < s.length := by rw [hs.1]; exact ht
  by_cases hc : ∀ c ∈ cs, atTop ds c s
  · rw [controlled, if_pos hc] at he
    have hst := hc t htc
    unfold atTop at hat hst
    rw [← he, bump_getD_self hq'] at hat
    have h1 := Int.emod_nonneg ((s.getD t 0 : Int) + p) (b := (ds.getD t 0 : Int)) (by omega)
    have h2 : ((s.getD t 0 : Int) + p) % (ds.getD t 0 : Int) = (s.getD t 0 : Int) % (ds.getD t 0 : Int) := by
      rw [Int.emod_eq_of_lt (a := (s.getD t 0 : Int)) (by omega) (by omega)]
      omega
    rw [Int.emod_eq_emod_iff_emod_sub_eq_zero] at h2
    apply hp
    simpa using h2
  · rw [controlled, if_neg hc] at he
    subst he
    exact hc htop

end QuDiet
