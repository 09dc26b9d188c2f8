import Verif.Lemmas.Emit

/-! # Toffoli and custom gates on several registers; rejected calls -/

namespace QuDiet
open Spec

variable {R : Type} [CommRing R]

theorem spanOf_eq {qs : List Int} {lb ub : Int} (hmin : pyMin qs = .ok lb) (hmax : pyMax qs = .ok ub) :
    spanOf qs = (lb.toNat, (ub + 1 - lb).toNat) := by
  cases qs with
  | nil => cases hmin
  | cons a l =>
    simp only [pyMin, pyMax, Except.ok.injEq] at hmin hmax
    simp only [spanOf, List.headD_cons, List.foldl_cons, min_self, max_self, hmin, hmax]

theorem pyMin_pyRange {lb ub : Int} (h : lb ≤ ub) : pyMin (pyRange lb (ub + 1)) = .ok lb := by
  have hne : pyRange lb (ub + 1) ≠ [] := by
    intro he
    have : lb ∈ pyRange lb (ub + 1) := mem_pyRange.2 (by omega)
    rw [he] at this
    simp at this
  obtain ⟨m, hm, h1, h2⟩ := pyMin_spec hne
  have := mem_pyRange.1 h1
  have := h2 lb (mem_pyRange.2 (by omega))
  rw [hm]
  congr 1
  omega

theorem pyMax_pyRange {lb ub : Int} (h : lb ≤ ub) : pyMax (pyRange lb (ub + 1)) = .ok ub := by
  have hne : pyRange lb (ub + 1) ≠ [] := by
    intro he
    have : lb ∈ pyRange lb (ub + 1) := mem_pyRange.2 (by omega)
    rw [he] at this
    simp at this
  obtain ⟨m, hm, h1, h2⟩ := pyMax_spec hne
  have := mem_pyRange.1 h1
  have := h2 ub (mem_pyRange.2 (by omega))
  rw [hm]
  congr 1
  omega

variable [StarRing R] [DecidableEq R] [UnitaryCheck R]

/-- The least and the greatest register of a list. -/
theorem exists_bounds {qs : List Int} (h : qs ≠ []) :
    ∃ lb ub, pyMin qs = .ok lb ∧ pyMax qs = .ok ub ∧ lb ∈ qs ∧ ub ∈ qs ∧
      (∀ x ∈ qs, lb ≤ x) ∧ (∀ x ∈ qs, x ≤ ub) := by
  obtain ⟨lb, h1, h2, h3⟩ := pyMin_spec h
  obtain ⟨ub, h4, h5, h6⟩ := pyMax_spec h
  exact ⟨lb, ub, h1, h4, h2, h5, h3, h6⟩

section
variable {N : Numerics R} {dims : List Nat} {c : Circuit R}

theorem top_fits {ds : List Nat} (h : ∀ d ∈ ds, 2 ≤ d) :
    Fits ds (ds.map (· - 1)) ∧ ∀ i < ds.length, atTop ds i (ds.map (· - 1)) := by
  constructor
  · induction ds with
    | nil => exact fits_nil.2 rfl
    | cons d ds ih =>
      rw [List.map_cons, fits_cons']
      exact ⟨by have := h d (by simp); omega, ih fun x hx => h x (by simp [hx])⟩
  · intro i hi
    unfold atTop
    have := h ds[i] (List.getElem_mem hi)
    simp only [List.getD_eq_getElem?_getD, List.getElem?_map, List.getElem?_eq_getElem hi,
      Option.map_some, Option.getD_some]
    omega

theorem emits_toffoli [Nontrivial R] (h2 : ∀ d ∈ dims, 2 ≤ d) (hd : c.qregs.seq = dims)
    {cs : List Int} {t p : Int}
    (hnr : fate dims (.toffoli cs t p : Call R) ≠ .rejected)
    (hno : fate dims (.toffoli cs t p : Call R) ≠ .odd) :
    ∃ ra lb ub g, Emits N dims c (.toffoli cs t p) ra lb ub g := by
  obtain ⟨lb, ub, hmin, hmax, hlbm, hubm, hlo, hhi⟩ := exists_bounds (qs := cs ++ [t]) (by simp)
  have hspan := spanOf_eq hmin hmax
  have hin : -(dims.length : Int) ≤ lb ∧ ub < dims.length := by
    by_contra hc
    apply hnr
    simp only [fate, hspan]
    rw [if_pos]
    rcases not_and_or.1 hc with h | h
    · exact ⟨lb, hlbm, by omega⟩
    · exact ⟨ub, hubm, by omega⟩
  have hnrej : ¬ ∃ q ∈ cs ++ [t], q < -(dims.length : Int) ∨ (dims.length : Int) ≤ q := by
    rintro ⟨q, hq, h⟩
    have := hlo q hq
    have := hhi q hq
    omega
  have hle : lb ≤ ub := hlo ub hubm
  obtain ⟨M, hM, hmv⟩ := toffoliDm_ok (R := R) (p := p) hmin hmax hin.1 hin.2 hlo hhi
  set acting := pyRange lb (ub + 1) with hacting
  set ds := acting.map (dimAt dims) with hds
  have hfate : fate dims (.toffoli cs t p : Call R) =
      if ub < 0 then .skipped else if lb < 0 then .odd
      else if (ub + 1 - lb).toNat ≠ 2 ∧ (t ∉ cs ∨ p % (dimAt dims t : Int) = 0) then .applied
      else .broken := by
    simp only [fate, hspan]
    rw [if_neg hnrej]
    have e1 : (∀ q ∈ cs ++ [t], q < 0) ↔ ub < 0 :=
      ⟨fun h => h ub hubm, fun h q hq => by have := hhi q hq; omega⟩
    have e2 : (∃ q ∈ cs ++ [t], q < 0) ↔ lb < 0 :=
      ⟨fun ⟨q, hq, h⟩ => by have := hlo q hq; omega, fun h => ⟨lb, hlbm, h⟩⟩
    simp only [e1, e2]
  -- properties of the matrix when the registers exist
  have hgood : 0 ≤ lb → ds = slice dims lb.toNat (ub + 1 - lb).toNat ∧ ds.length = (ub + 1 - lb).toNat ∧
      ds.getD (t - lb).toNat 0 = dimAt dims t := by
    intro h0
    have hl : ds.length = (ub + 1 - lb).toNat := by rw [hds, hacting]; simp [pyRange]
    refine ⟨pyRange_dims h0 hin.2, hl, ?_⟩
    have ht1 := hlo t (by simp)
    have ht2 := hhi t (by simp)
    have e : lb + (t - lb).toNat = t := by omega
    have hr : (t - lb).toNat < (ub + 1 - lb).toNat := by omega
    rw [hds, hacting, List.getD_eq_getElem?_getD]
    unfold pyRange
    rw [List.map_map, List.getElem?_map, List.getElem?_range hr]
    simp only [Function.comp, Option.map_some, Option.getD_some, e]
  have herr : fate dims (.toffoli cs t p : Call R) = .broken → lo dims lb < hi dims ub ∧
      ∃ e, (GateObj.toffoli cs t acting ds M p : GateObj R).unitary N (numpyBackend R) = .error e := by
    intro hb
    rw [hfate] at hb
    split at hb
    · cases hb
    · split at hb
      · cases hb
      · split at hb
        · cases hb
        · rename_i hu hl hc
          have h0 : 0 ≤ lb := by omega
          obtain ⟨g1, g2, g3⟩ := hgood h0
          refine ⟨by simp only [lo, hi]; omega, ?_⟩
          cases hun : M.isUnitary with
          | false => exact ⟨.exception, by simp [GateObj.unitary, arbMat, hun]⟩
          | true =>
            by_cases hlen : (ub + 1 - lb).toNat = 2
            · refine ⟨.assertion, ?_⟩
              have : arbMat (.list ds) M = .error .assertion := by
                unfold arbMat
                rw [hun]
                rcases hl : ds with _ | ⟨a, _ | ⟨b, _ | ⟨c, l⟩⟩⟩ <;> rw [hl] at g2 <;> simp at g2 <;>
                  first | omega | rfl
              simp [GateObj.unitary, this]
            · exfalso
              have hc' : ¬ (t ∉ cs ∨ p % (dimAt dims t : Int) = 0) := fun h => hc ⟨hlen, h⟩
              rw [not_or, not_not] at hc'
              have htl : (t - lb).toNat < ds.length := by
                have := hlo t (by simp); have := hhi t (by simp); omega
              have hds2 : ∀ d ∈ ds, 2 ≤ d := by
                intro d hdm
                rw [g1] at hdm
                exact h2 d (List.mem_of_mem_drop (List.mem_of_mem_take hdm))
              obtain ⟨tf, ta⟩ := top_fits hds2
              have htop : ∀ x ∈ cs.map (fun c => (c - lb).toNat), atTop ds x (ds.map (· - 1)) := by
                intro x hx
                obtain ⟨y, hy, rfl⟩ := List.mem_map.1 hx
                apply ta
                have := hlo y (by simp [hy]); have := hhi y (by simp [hy]); omega
              have := hmv.not_unitary _ tf fun s hs =>
                controlled_not_onto (cs.map fun c => (c - lb).toNat) _ htl p
                  (List.mem_map.2 ⟨t, hc'.1, rfl⟩) (by rw [g3]; exact hc'.2) _ tf htop hs
              rw [this] at hun
              cases hun
  refine ⟨.list acting, lb, ub, .toffoli cs t acting ds M p, ?_, ?_, ?_, ?_, ?_, ?_, by
    simp only [Call.op, hM, bind, Except.bind]; rfl⟩
  · refine ⟨⟨pyMin_pyRange hle, pyMax_pyRange hle⟩, hle, rfl, rfl, rfl, hlbm, hubm, ?_⟩
    exact fun x hx => ⟨hlo x hx, hhi x hx⟩
  · intro c' hc'
    simp only [Circuit.callM, hd, hM, bind, Except.bind]
    rw [hc']
  · intro hs
    rw [hfate] at hs
    split at hs
    · simp only [lo, hi]; omega
    · split at hs
      · cases hs
      · split at hs <;> cases hs
  · intro ha
    rw [hfate] at ha
    split at ha
    · cases ha
    · split at ha
      · cases ha
      · split at ha
        · rename_i hu hl hc
          have h0 : 0 ≤ lb := by omega
          obtain ⟨g1, g2, g3⟩ := hgood h0
          obtain ⟨e1, e2, e3, e4⟩ := lohi_in (dims := dims) h0 hle hin.2
          rw [e2, e1]
          refine ⟨e1 ▸ e3, (ds, M.e), ⟨g1, ?_, by simp [GateObj.isIdent]⟩, ?_⟩
          · have htl : (t - lb).toNat < ds.length := by
              have := hlo t (by simp); have := hhi t (by simp); omega
            have hcond : (t - lb).toNat ∉ cs.map (fun c => (c - lb).toNat) ∨
                p % (ds.getD (t - lb).toNat 0 : Int) = 0 := by
              rw [g3]
              refine hc.2.imp ?_ id
              intro h hm
              obtain ⟨x, hx, he⟩ := List.mem_map.1 hm
              have h1 := hlo x (by simp [hx])
              have h2 := hlo t (by simp)
              have : x = t := by omega
              exact h (this ▸ hx)
            have hcond' : (t - lb).toNat ∉ cs.map (fun c => (c - lb).toNat) ∨
                (-p) % (ds.getD (t - lb).toNat 0 : Int) = 0 :=
              hcond.imp id fun h => Int.emod_eq_zero_of_dvd ((Int.dvd_of_emod_eq_zero h).neg_right)
            have hun : M.isUnitary = true := by
              apply hmv.unitary (g := controlled ds (cs.map fun c => (c - lb).toNat) (t - lb).toNat (-p))
              · intro s hs
                refine ⟨fits_controlled hs _ _ htl _, ?_⟩
                have := controlled_inv (cs.map fun c => (c - lb).toNat) _ htl (-p) hcond' hs
                simpa using this
              · intro s hs
                exact controlled_inv (cs.map fun c => (c - lb).toNat) _ htl p hcond hs
            apply hmv.block
            have harb : arbMat (.list ds) M = .ok M := by
              unfold arbMat
              rw [hun]
              have h1 := hmv.1
              have h2 := hmv.2.1
              rcases hl : ds with _ | ⟨a, _ | ⟨b, _ | ⟨c, l⟩⟩⟩
              · rfl
              · rw [hl] at h1 h2
                simp only [List.prod_singleton] at h1 h2
                simp [h1, h2]
              · rw [hl] at g2
                exact absurd g2.symm hc.1
              · rfl
            simp [GateObj.unitary, harb, numpyBackend]
          · intro ψ
            simp only [meaning]
            rw [g1] at hmv
            apply onBlock_controlled e4
            · intro x hx
              obtain ⟨y, hy, rfl⟩ := List.mem_map.1 hx
              have := hlo y (by simp [hy]); have := hhi y (by simp [hy]); omega
            · have := hlo t (by simp); have := hhi t (by simp); omega
            · have e5 : (cs.map Int.toNat).map (· - lb.toNat) = cs.map fun c => (c - lb).toNat := by
                rw [List.map_map]
                apply List.map_congr_left
                intro y hy
                simp only [Function.comp]
                have := hlo y (by simp [hy]); omega
              have e6 : t.toNat - lb.toNat = (t - lb).toNat := by have := hlo t (by simp); omega
              rw [e5, e6]
              exact hmv
        · cases ha
  · intro hb
    exact ⟨(herr hb).1, rfl, .inl (herr hb).2⟩
  · intro hb _
    exact (herr hb).2

theorem forM_validate_ok {c : Circuit R} {qs : List Int} {k : Option Nat}
    (h : ∀ q ∈ qs, c.validate q k = .ok ()) : (qs.forM fun q => c.validate q k) = (.ok () : PyM Unit) := by
  induction qs with
  | nil => rfl
  | cons a l ih =>
    rw [List.forM, h a (by simp)]
    exact ih fun q hq => h q (by simp [hq])

theorem forM_validate_error {c : Circuit R} {qs : List Int} {k : Option Nat} {q : Int} (hq : q ∈ qs)
    {e : Err} (h : c.validate q k = .error e) :
    ∃ e', (qs.forM fun q => c.validate q k) = (.error e' : PyM Unit) := by
  induction qs with
  | nil => simp at hq
  | cons a l ih =>
    rw [List.forM]
    cases ha : c.validate a k with
    | error e' => exact ⟨e', rfl⟩
    | ok u =>
      rcases List.mem_cons.1 hq with rfl | hq
      · rw [h] at ha; cases ha
      · exact ih hq

theorem emits_gate_list (hd : c.regDims = dims) (hn : c.regLength = dims.length)
    {U : Mat R} {qs : List Int} {k : Option Nat}
    (hnr : fate dims (.gate U (.list qs) k) ≠ .rejected)
    (hno : fate dims (.gate U (.list qs) k) ≠ .odd) :
    ∃ ra lb ub g, Emits N dims c (.gate U (.list qs) k) ra lb ub g := by
  have hne : qs ≠ [] := by
    rintro rfl
    apply hnr
    simp [fate]
  obtain ⟨lb, ub, hmin, hmax, hlbm, hubm, hlo, hhi⟩ := exists_bounds hne
  have hspan := spanOf_eq hmin hmax
  have hnrej : ¬ (qs = [] ∨ (∃ q ∈ qs, q < -(dims.length : Int) ∨ (dims.length : Int) ≤ q) ∨
      (∃ q ∈ qs, dimAt dims q < k.getD 0)) := by
    intro hc
    apply hnr
    simp only [fate, hspan]
    rw [if_pos hc]
  have hle : lb ≤ ub := hlo ub hubm
  have hin : ∀ q ∈ qs, -(dims.length : Int) ≤ q ∧ q < dims.length := by
    intro q hq
    by_contra hc
    exact hnrej (.inr (.inl ⟨q, hq, by omega⟩))
  have hsm : ∀ q ∈ qs, k.getD 0 ≤ dimAt dims q := by
    intro q hq
    by_contra hc
    exact hnrej (.inr (.inr ⟨q, hq, by omega⟩))
  have hval : ∀ q ∈ qs, c.validate q k = .ok () := by
    intro q hq
    apply (validate_accepted (good := true) hd hn _).1
    unfold fateOne
    rw [if_neg (by have := hin q hq; omega), if_neg (by have := hsm q hq; omega)]
    split
    · simp
    · split <;> simp
  have e1 : (∀ q ∈ qs, q < 0) ↔ ub < 0 :=
    ⟨fun h => h ub hubm, fun h q hq => by have := hhi q hq; omega⟩
  have e2 : (∃ q ∈ qs, q < 0) ↔ lb < 0 :=
    ⟨fun ⟨q, hq, h⟩ => by have := hlo q hq; omega, fun h => ⟨lb, hlbm, h⟩⟩
  set size := (slice dims lb.toNat (ub + 1 - lb).toNat).prod with hsize
  have hfate : fate dims (.gate U (.list qs) k) =
      if ub < 0 then .skipped else if lb < 0 then .odd
      else if U.isUnitary = false then .broken
      else if (k.getD 0 ≠ 0 ∧ ¬ (U.rows = k.getD 0 ∧ U.cols = k.getD 0)) ∨
          (k.getD 0 = 0 ∧ qs.length = 2) ∨
          (k.getD 0 = 0 ∧ qs.length = 1 ∧ ¬ (U.rows = size ∧ U.cols = size)) then .broken
      else if U.rows = size ∧ U.cols = size then .applied
      else if U.rows = U.cols ∧ U.rows < size then .broken
      else .odd := by
    simp only [fate, hspan]
    rw [if_neg hnrej]
    simp only [e1, e2]
    rfl
  set da : DimArg := if k.getD 0 = 0 then .list (qs.map (dimAt dims)) else .int (k.getD 0) with hda
  have hcallM : c.callM (.gate U (.list qs) k) = c.addMoment (.list qs) (.arb (.list qs) da U) := by
    have hmap : qs.mapM (pyGet dims) = .ok (qs.map (dimAt dims)) :=
      mapM_ok _ _ _ fun q hq => pyGet_dimAt (hin q hq).1 (hin q hq).2
    simp only [Circuit.callM, forM_validate_ok hval, bind, Except.bind]
    rcases k with _ | _ | k
    · simp [hd, hmap, hda]
    · simp [hd, hmap, hda]
    · simp [hda]
  -- with one register, its dimension is the size
  have hone : 0 ≤ lb → qs.length = 1 → qs.map (dimAt dims) = [size] := by
    intro h0 hl
    obtain ⟨a, rfl⟩ := List.length_eq_one_iff.1 hl
    simp only [pyMin, pyMax, List.foldl_nil, Except.ok.injEq] at hmin hmax
    subst hmin
    subst hmax
    have := hin a (by simp)
    have hr : (a + 1 - a).toNat = 1 := by omega
    rw [hsize, hr, slice_one (by omega)]
    simp only [List.map_cons, List.map_nil, List.prod_singleton]
    rw [dimAt_nat h0 this.2]
  have harb : 0 ≤ lb → U.isUnitary = true →
      arbMat da U = if (k.getD 0 ≠ 0 ∧ ¬ (U.rows = k.getD 0 ∧ U.cols = k.getD 0)) ∨
          (k.getD 0 = 0 ∧ qs.length = 2) ∨
          (k.getD 0 = 0 ∧ qs.length = 1 ∧ ¬ (U.rows = size ∧ U.cols = size)) then .error .assertion
        else .ok U := by
    intro h0 hu
    unfold arbMat
    rw [hu, hda]
    simp only [Bool.not_true, Bool.false_eq_true, if_false]
    by_cases hk : k.getD 0 = 0
    · simp only [if_pos hk, hk, ne_eq, not_true_eq_false, false_and, false_or, true_and]
      rcases hq : qs with _ | ⟨a, _ | ⟨b, _ | ⟨d, l⟩⟩⟩
      · exact absurd hq hne
      · have := hone h0 (by rw [hq]; rfl)
        rw [hq] at this
        simp only [List.map_cons, List.map_nil] at this ⊢
        rw [this]
        simp only [List.length_cons, List.length_nil]
        by_cases hs : U.rows = size ∧ U.cols = size
        · simp [hs]
        · simp [hs]
      · simp
      · simp
    · simp only [if_neg hk, hk, ne_eq, not_false_eq_true, true_and, false_and, or_false]
      by_cases hs : U.rows = k.getD 0 ∧ U.cols = k.getD 0
      · simp [hs]
      · simp [hs]
  refine ⟨.list qs, lb, ub, .arb (.list qs) da U, ?_, ?_, ?_, ?_, ?_, ?_, rfl⟩
  · exact ⟨⟨hmin, hmax⟩, hle, rfl, rfl, rfl, hlbm, hubm, fun x hx => ⟨hlo x hx, hhi x hx⟩⟩
  · intro c' hc'
    rw [hcallM, hc']
  · intro hs
    rw [hfate] at hs
    by_cases hu : ub < 0
    · simp only [lo, hi]; omega
    · rw [if_neg hu] at hs
      repeat' split at hs
      all_goals cases hs
  · intro ha
    rw [hfate] at ha
    have hu : ¬ ub < 0 := by intro h; rw [if_pos h] at ha; cases ha
    rw [if_neg hu] at ha
    have hl : ¬ lb < 0 := by intro h; rw [if_pos h] at ha; cases ha
    rw [if_neg hl] at ha
    have h0 : 0 ≤ lb := by omega
    have hun : U.isUnitary = true := by
      cases h : U.isUnitary
      · rw [if_pos h] at ha; cases ha
      · rfl
    rw [if_neg (by simp [hun])] at ha
    by_cases hc : (k.getD 0 ≠ 0 ∧ ¬ (U.rows = k.getD 0 ∧ U.cols = k.getD 0)) ∨
          (k.getD 0 = 0 ∧ qs.length = 2) ∨
          (k.getD 0 = 0 ∧ qs.length = 1 ∧ ¬ (U.rows = size ∧ U.cols = size))
    · rw [if_pos hc] at ha; cases ha
    · rw [if_neg hc] at ha
      have hs : U.rows = size ∧ U.cols = size := by
        by_contra h
        rw [if_neg h] at ha
        split at ha <;> cases ha
      obtain ⟨f1, f2, f3, f4⟩ := lohi_in (dims := dims) h0 hle (hin ub hubm).2
      rw [f2, f1]
      refine ⟨f1 ▸ f3, (slice dims lb.toNat (ub + 1 - lb).toNat, U.e), ⟨rfl, ?_, by simp [GateObj.isIdent]⟩, ?_⟩
      · refine ⟨U, ?_, hs.1, hs.2, fun _ _ _ _ => rfl⟩
        have := harb h0 hun
        rw [if_neg hc] at this
        simp [GateObj.unitary, this, numpyBackend]
      · intro ψ
        simp only [meaning, hspan]
        exact EqOn.rfl'
  · intro hb
    rw [hfate] at hb
    have hu : ¬ ub < 0 := by intro h; rw [if_pos h] at hb; cases hb
    rw [if_neg hu] at hb
    have hl : ¬ lb < 0 := by intro h; rw [if_pos h] at hb; cases hb
    rw [if_neg hl] at hb
    have h0 : 0 ≤ lb := by omega
    obtain ⟨f1, f2, f3, f4⟩ := lohi_in (dims := dims) h0 hle (hin ub hubm).2
    rw [f2, f1]
    refine ⟨f1 ▸ f3, rfl, ?_⟩
    cases hun : U.isUnitary with
    | false => exact .inl ⟨.exception, by simp [GateObj.unitary, arbMat, hun]⟩
    | true =>
      rw [if_neg (by simp [hun])] at hb
      by_cases hc : (k.getD 0 ≠ 0 ∧ ¬ (U.rows = k.getD 0 ∧ U.cols = k.getD 0)) ∨
          (k.getD 0 = 0 ∧ qs.length = 2) ∨
          (k.getD 0 = 0 ∧ qs.length = 1 ∧ ¬ (U.rows = size ∧ U.cols = size))
      · left
        have := harb h0 hun
        rw [if_pos hc] at this
        exact ⟨.assertion, by simp [GateObj.unitary, this]⟩
      · right
        have := harb h0 hun
        rw [if_neg hc] at this hb
        split at hb
        · cases hb
        · split at hb
          · rename_i _ hs
            exact ⟨U, by simp [GateObj.unitary, this, numpyBackend], hs.1, hs.2⟩
          · cases hb
  · intro hb hf
    rw [hfate] at hb
    have hu : ¬ ub < 0 := by intro h; rw [if_pos h] at hb; cases hb
    rw [if_neg hu] at hb
    have hl : ¬ lb < 0 := by intro h; rw [if_pos h] at hb; cases hb
    rw [if_neg hl] at hb
    cases hun : U.isUnitary with
    | false => exact ⟨.exception, by simp [GateObj.unitary, arbMat, hun]⟩
    | true =>
      rw [if_neg (by simp [hun])] at hb
      have hc : (k.getD 0 ≠ 0 ∧ ¬ (U.rows = k.getD 0 ∧ U.cols = k.getD 0)) ∨
          (k.getD 0 = 0 ∧ qs.length = 2) ∨
          (k.getD 0 = 0 ∧ qs.length = 1 ∧ ¬ (U.rows = size ∧ U.cols = size)) := by
        rcases hf with h | h | h
        · rw [hun] at h; cases h
        · have hq0 := List.length_pos_of_ne_nil hne
          by_cases h2 : qs.length = 2
          · exact .inr (.inl ⟨h.1, h2⟩)
          · refine .inr (.inr ⟨h.1, by omega, ?_⟩)
            intro hs
            rw [if_neg (by rintro (h' | h' | h'); exacts [h'.1 h.1, h2 h'.2, h'.2.2 hs]), if_pos hs] at hb
            cases hb
        · exact .inl h
      have := harb (by omega) hun
      rw [if_pos hc] at this
      exact ⟨.assertion, by simp [GateObj.unitary, this]⟩

/-! ### All calls -/

theorem emits_all [Nontrivial R] (hN : N.Sized) (h2 : ∀ d ∈ dims, 2 ≤ d) (hpos : 0 < dims.length)
    (hd : c.regDims = dims) (hn : c.regLength = dims.length) {k : Call R}
    (hq : (∃ cs t p, k = .toffoli cs t p) → c.qregs.seq = dims)
    (hm : k.isMeasureAll = false) (hnr : fate dims k ≠ .rejected) (hno : fate dims k ≠ .odd) :
    ∃ ra lb ub g, Emits N dims c k ra lb ub g := by
  cases k with
  | h q k => exact emits_h hN h2 hd hn hnr
  | x q k p => exact emits_x h2 hd hn hnr
  | z q k => exact emits_z hN h2 hd hn hnr
  | cx ctl tgt p => exact emits_cx hd hn hpos
  | toffoli cs t p => exact emits_toffoli h2 (hq ⟨_, _, _, rfl⟩) hnr hno
  | gate U q k =>
    cases q with
    | int q => exact emits_gate_int hd hn hnr
    | list qs => exact emits_gate_list hd hn hnr hno
  | measure q => exact absurd rfl hnr
  | measureAll => cases hm

/-- A rejected call raises. -/
theorem rejected_raises (hd : c.regDims = dims) (hn : c.regLength = dims.length) {k : Call R}
    (hq : (∃ cs t p, k = .toffoli cs t p) → c.qregs.seq = dims)
    (hr : fate dims k = .rejected) : ∃ e, c.callM k = .error e := by
  have one : ∀ {q : Int} {k : Option Nat} {good : Bool} {f : Nat → PyM (Circuit R × Bool)},
      fateOne dims q k good = .rejected →
      ∃ e, (do c.validate q k; let d ← c.gateDims q k; f d) = (.error e : PyM (Circuit R × Bool)) := by
    intro q k good f h
    rcases validate_rejected hd hn h with ⟨e, he⟩ | ⟨h1, e, he⟩
    · exact ⟨e, by simp only [he, bind, Except.bind]⟩
    · exact ⟨e, by simp only [h1, he, bind, Except.bind]⟩
  cases k with
  | h q k => exact one hr
  | x q k p => exact one hr
  | z q k => exact one hr
  | cx ctl tgt p =>
    simp only [fate] at hr
    split at hr
    · cases hr
    · split at hr <;> cases hr
  | toffoli cs t p =>
    simp only [fate] at hr
    by_cases hc : ∃ q ∈ cs ++ [t], q < -(dims.length : Int) ∨ (dims.length : Int) ≤ q
    · obtain ⟨lb, ub, hmin, hmax, hlbm, hubm, hlo, hhi⟩ := exists_bounds (qs := cs ++ [t]) (by simp)
      obtain ⟨q, hqm, hq'⟩ := hc
      have hr1 : q ∈ pyRange lb (ub + 1) := mem_pyRange.2 (by
        have := hlo q hqm; have := hhi q hqm; omega)
      obtain ⟨e, he⟩ := mapM_error (pyRange lb (ub + 1)) (pyGet dims) q hr1 _ (pyGet_out hq')
      refine ⟨e, ?_⟩
      simp only [Circuit.callM, hq ⟨_, _, _, rfl⟩, toffoliDm, hmin, hmax, bind, Except.bind, he]
    · rw [if_neg hc] at hr
      split at hr
      · cases hr
      · split at hr
        · cases hr
        · split at hr <;> cases hr
  | gate U q k =>
    cases q with
    | int q => exact one hr
    | list qs =>
      simp only [fate] at hr
      by_cases hc : qs = [] ∨ (∃ q ∈ qs, q < -(dims.length : Int) ∨ (dims.length : Int) ≤ q) ∨
          (∃ q ∈ qs, dimAt dims q < k.getD 0)
      · by_cases hbad : ∃ q ∈ qs, ∃ e, c.validate q k = .error e
        · obtain ⟨q, hq, e, he⟩ := hbad
          obtain ⟨e', he'⟩ := forM_validate_error hq he
          exact ⟨e', by simp only [Circuit.callM, he', bind, Except.bind]⟩
        · have hval : ∀ q ∈ qs, c.validate q k = .ok () := by
            intro q hq
            cases h : c.validate q k with
            | ok u => rfl
            | error e => exact absurd ⟨q, hq, e, h⟩ hbad
          have hbad2 : qs = [] ∨ ∃ q ∈ qs, ∃ e, c.gateDims q k = .error e := by
            rcases hc with h | h
            · exact .inl h
            · right
              have : ∃ q ∈ qs, fateOne dims q k true = .rejected := by
                rcases h with ⟨q, hq, h⟩ | ⟨q, hq, h⟩
                · exact ⟨q, hq, by unfold fateOne; rw [if_pos h]⟩
                · refine ⟨q, hq, ?_⟩
                  unfold fateOne
                  split
                  · rfl
                  · first | rfl | rw [if_pos h]
              obtain ⟨q, hq, h⟩ := this
              rcases validate_rejected hd hn h with ⟨e, he⟩ | ⟨_, he⟩
              · exact absurd ⟨q, hq, e, he⟩ hbad
              · exact ⟨q, hq, he⟩
          simp only [Circuit.callM, forM_validate_ok hval, bind, Except.bind]
          have hadd : ∀ g, qs = [] → ∃ e, c.addMoment (.list qs) g = .error e := by
            intro g h
            refine ⟨.value, ?_⟩
            subst h
            simp only [Circuit.addMoment, Circuit.momentData, pyMin, bind, Except.bind]
          rcases hbad2 with h | ⟨q, hqm, e, he⟩
          · rcases k with _ | _ | k
            · have : qs.mapM (pyGet c.regDims) = .ok [] := by rw [h]; rfl
              simp only [this]
              exact hadd _ h
            · have : qs.mapM (pyGet c.regDims) = .ok [] := by rw [h]; rfl
              simp only [this]
              exact hadd _ h
            · exact hadd _ h
          · rcases k with _ | _ | k
            · obtain ⟨e', he'⟩ := mapM_error qs (pyGet c.regDims) q hqm e he
              exact ⟨e', by simp only [he']⟩
            · obtain ⟨e', he'⟩ := mapM_error qs (pyGet c.regDims) q hqm e he
              exact ⟨e', by simp only [he']⟩
            · simp [Circuit.gateDims] at he
      · exfalso
        rw [if_neg hc] at hr
        revert hr
        repeat' split
        all_goals simp
  | measure q => exact ⟨_, rfl⟩
  | measureAll => cases hr

end

end QuDiet
