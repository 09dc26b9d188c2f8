import Verif.Lemmas.Toffoli

/-! # Structure of the moments that the API builds -/

namespace QuDiet
open Spec

variable {R : Type}

/-- The registers named by a gate object. -/
def GateObj.regs : GateObj R → List Int
  | .init _ _ q => [(q : Int)]
  | .ident q _ => [(q : Int)]
  | .h q _ => [q]
  | .x q _ _ => [q]
  | .z q _ => [q]
  | .cx _ c t _ => [c, t]
  | .toffoli cs t _ _ _ _ => cs ++ [t]
  | .arb (.int q) _ _ => [q]
  | .arb (.list qs) _ _ => qs
  | .meas q => [(q : Int)]

def GateObj.isInit : GateObj R → Bool
  | .init .. => true
  | _ => false

/-- `r` lies between two of the registers `qs`. -/
def InHull (qs : List Int) (r : Int) : Prop := (∃ a ∈ qs, a ≤ r) ∧ ∃ b ∈ qs, r ≤ b

/-- `m` is a list of operators, the first starting at register `off`, each covering the registers
(below `n`) between those it names, without gaps or overlaps up to register `n`.
`P off k g b` is a further condition on each operator `g` covering `off, …, off+k-1`. -/
inductive Layer {β : Type} (n : Nat) (P : Nat → Nat → GateObj R → β → Prop) :
    Nat → List (GateObj R) → List β → Prop
  | nil : Layer n P n [] []
  | cons {off k : Nat} {g : GateObj R} {b : β} {m : List (GateObj R)} {bs : List β}
      (hk : 0 < k) (hle : off + k ≤ n) (hinit : g.isInit = false)
      (hcov : ∀ r : Nat, r < n → ((off ≤ r ∧ r < off + k) ↔ InHull g.regs r))
      (hP : P off k g b) (rest : Layer n P (off + k) m bs) : Layer n P off (g :: m) (b :: bs)

theorem Layer.le {β : Type} {n : Nat} {P : Nat → Nat → GateObj R → β → Prop} {off : Nat}
    {m : List (GateObj R)} {bs : List β} (h : Layer n P off m bs) : off ≤ n := by
  cases h <;> omega

theorem inHull_singleton {q r : Int} : InHull [q] r ↔ q = r := by
  unfold InHull
  simp
  omega

/-- The identity operators on registers `a, …, b-1`. -/
def ids (dims : List Nat) (a b : Nat) : List (GateObj R) :=
  (List.range' a (b - a)).map fun r => .ident r (dims.getD r 0)

theorem ids_self (dims : List Nat) (a : Nat) : ids (R := R) dims a a = [] := by simp [ids]

theorem ids_cons {dims : List Nat} {a b : Nat} (h : a < b) :
    ids (R := R) dims a b = .ident a (dims.getD a 0) :: ids dims (a + 1) b := by
  unfold ids
  obtain ⟨k, rfl⟩ : ∃ k, b = a + (k + 1) := ⟨b - a - 1, by omega⟩
  rw [show a + (k + 1) - a = k + 1 by omega, show a + (k + 1) - (a + 1) = k by omega,
    List.range'_succ]
  rfl

theorem ids_concat {dims : List Nat} {a b : Nat} (h : a ≤ b) :
    ids (R := R) dims a (b + 1) = ids dims a b ++ [.ident b (dims.getD b 0)] := by
  unfold ids
  rw [show b + 1 - a = (b - a) + 1 by omega, List.range'_concat, List.map_append]
  simp [show a + (b - a) = b by omega]

/-- The operators of a new moment: `g` on the registers between `lb` and `ub` that exist,
identities elsewhere. -/
def layout (dims : List Nat) (lb ub : Int) (g : GateObj R) : List (GateObj R) :=
  let n := dims.length
  let a := min n lb.toNat
  let b := min n (ub + 1).toNat
  if a < b then ids dims 0 a ++ g :: ids dims b n else ids dims 0 n

/-- Lowest and highest register of a register argument. -/
def RegArg.Bounds : RegArg → Int → Int → Prop
  | .int q, lb, ub => lb = q ∧ ub = q
  | .list qs, lb, ub => pyMin qs = .ok lb ∧ pyMax qs = .ok ub

section
variable (c : Circuit R) (hn : c.regLength = c.regDims.length)
include hn

theorem momentData_eq {q : RegArg} {lb ub : Int} (hb : q.Bounds lb ub) (hle : lb ≤ ub)
    (g : GateObj R) : c.momentData q g = .ok (layout c.regDims lb ub g) := by
  set n := c.regDims.length with hndef
  set a := min n lb.toNat with ha
  set b := min n (ub + 1).toNat with hbdef
  -- the loop for a list of registers
  cases q with
  | int q =>
    obtain ⟨rfl, rfl⟩ := hb
    unfold Circuit.momentData
    simp only [bind, Except.bind]
    congr 1
    rw [hn]
    have key : ∀ r ≤ n, (List.range r).foldl (momentStep c.regDims none (.int ub) g) ([], false)
        = (if (a < b ∧ a < r) then ids c.regDims 0 a ++ g :: ids c.regDims b r
            else ids c.regDims 0 r, false) := by
      intro r hr
      induction r with
      | zero => simp [ids_self]
      | succ r ih =>
        rw [List.range_succ, List.foldl_append, ih (by omega)]
        simp only [List.foldl_cons, List.foldl_nil, momentStep, Bool.false_eq_true, if_false]
        by_cases h : (r : Int) = ub
        · have e1 : a = r := by omega
          have e2 : b = r + 1 := by omega
          rw [if_pos h, if_neg (by omega), if_pos (by omega), e1, e2, ids_self]
          have hl : (ids (R := R) c.regDims 0 r).length = r := by simp [ids]
          rw [List.set_append_right _ _ (by omega), hl]
          simp
        · rw [if_neg h]
          by_cases h2 : a < b ∧ a < r
          · rw [if_pos h2, if_pos (by omega), ids_concat (by omega)]
            simp
          · rw [if_neg h2, if_neg (by omega), ids_concat (by omega)]
    rw [key n (le_refl _)]
    simp only [layout]
    by_cases h : a < b
    · rw [if_pos (show a < b ∧ a < n by omega), if_pos h]
    · rw [if_neg (by omega), if_neg h]
  | list qs =>
    obtain ⟨h1, h2⟩ := hb
    unfold Circuit.momentData
    simp only [h1, h2, bind, Except.bind]
    congr 1
    rw [hn]
    have key : ∀ r ≤ n, (List.range r).foldl (momentStep c.regDims (some (lb, ub)) (.list qs) g) ([], false)
        = (if (a < b ∧ a < r) then (ids c.regDims 0 a ++ g :: ids c.regDims b r, true)
            else (ids c.regDims 0 r, false)) := by
      intro r hr
      induction r with
      | zero => simp [ids_self]
      | succ r ih =>
        rw [List.range_succ, List.foldl_append, ih (by omega)]
        simp only [List.foldl_cons, List.foldl_nil, momentStep, decide_eq_true_eq]
        by_cases h : lb ≤ (r : Int) ∧ (r : Int) ≤ ub
        · have e1 : a ≤ r := by omega
          have e2 : r + 1 ≤ b := by omega
          rw [if_pos h]
          by_cases h2 : a < b ∧ a < r
          · rw [if_pos h2]
            rw [if_pos (show a < b ∧ a < r + 1 by omega)]
            simp [ids, show r - b = 0 by omega, show r + 1 - b = 0 by omega]
          · rw [if_neg h2, if_pos (show a < b ∧ a < r + 1 by omega)]
            have e3 : a = r := by omega
            simp [ids, show r + 1 - b = 0 by omega, e3]
        · rw [if_neg h]
          by_cases h2 : a < b ∧ a < r
          · rw [if_pos h2, if_pos (by omega), ids_concat (by omega)]
            simp
          · rw [if_neg h2, if_neg (by omega), ids_concat (by omega)]
    rw [key n (le_refl _)]
    simp only [layout]
    by_cases h : a < b
    · rw [if_pos (show a < b ∧ a < n by omega), if_pos h]
    · rw [if_neg (by omega), if_neg h]

end

/-! ### Layers from layouts -/

section
variable {β : Type} {P : Nat → Nat → GateObj R → β → Prop}

theorem Layer.ids_append {dims : List Nat} {bI : Nat → β}
    (hI : ∀ r < dims.length, P r 1 (.ident r (dims.getD r 0)) (bI r)) {a b : Nat} (hab : a ≤ b)
    {m : List (GateObj R)} {bs : List β} (h : Layer dims.length P b m bs) :
    Layer dims.length P a (ids dims a b ++ m) ((List.range' a (b - a)).map bI ++ bs) := by
  have hb := h.le
  induction hk : b - a generalizing a with
  | zero =>
    have : a = b := by omega
    subst this
    simpa [ids_self] using h
  | succ k ih =>
    rw [ids_cons (by omega), List.range'_succ]
    refine Layer.cons (k := 1) (by omega) (by omega) rfl ?_ (hI a (by omega)) ?_
    · intro r hr
      rw [GateObj.regs, inHull_singleton]
      omega
    · exact ih (a := a + 1) (by omega) (by omega)

theorem Layer.layout_in {dims : List Nat} {bI : Nat → β}
    (hI : ∀ r < dims.length, P r 1 (.ident r (dims.getD r 0)) (bI r)) {lb ub : Int} {g : GateObj R}
    {bg : β} (hinit : g.isInit = false)
    (hlb : lb ∈ g.regs) (hub : ub ∈ g.regs) (hbd : ∀ x ∈ g.regs, lb ≤ x ∧ x ≤ ub)
    (hin : min dims.length lb.toNat < min dims.length (ub + 1).toNat)
    (hg : P (min dims.length lb.toNat)
      (min dims.length (ub + 1).toNat - min dims.length lb.toNat) g bg) :
    Layer dims.length P 0 (layout dims lb ub g)
      ((List.range' 0 (min dims.length lb.toNat)).map bI ++ bg ::
        (List.range' (min dims.length (ub + 1).toNat)
          (dims.length - min dims.length (ub + 1).toNat)).map bI) := by
  unfold layout
  simp only [if_pos hin]
  apply Layer.ids_append hI (by omega)
  refine Layer.cons (by omega) (by omega) hinit ?_ hg ?_
  · intro r hr
    constructor
    · intro h
      exact ⟨⟨lb, hlb, by omega⟩, ⟨ub, hub, by omega⟩⟩
    · rintro ⟨⟨x, hx, hx'⟩, ⟨y, hy, hy'⟩⟩
      have := hbd x hx
      have := hbd y hy
      omega
  · rw [show min dims.length lb.toNat + (min dims.length (ub + 1).toNat - min dims.length lb.toNat)
      = min dims.length (ub + 1).toNat by omega]
    have := Layer.ids_append (b := dims.length) hI (a := min dims.length (ub + 1).toNat)
      (by omega) (Layer.nil (P := P))
    simpa using this

theorem Layer.layout_out {dims : List Nat} {bI : Nat → β}
    (hI : ∀ r < dims.length, P r 1 (.ident r (dims.getD r 0)) (bI r)) {lb ub : Int} {g : GateObj R}
    (hout : ¬ min dims.length lb.toNat < min dims.length (ub + 1).toNat) :
    Layer dims.length P 0 (layout dims lb ub g) ((List.range' 0 dims.length).map bI) := by
  unfold layout
  simp only [if_neg hout]
  have := Layer.ids_append (b := dims.length) hI (a := 0) (by omega) (Layer.nil (P := P))
  simpa using this

/-! ### Finding an identity -/

/-- Registers of a register argument. -/
def RegArg.toList : RegArg → List Int
  | .int q => [q]
  | .list qs => qs

theorem actingOn_regs {g : GateObj R} (h : g.isInit = false) :
    ∃ a, g.actingOn = .ok a ∧ ∀ x ∈ a.toList, x ∈ g.regs := by
  cases g with
  | init => simp [GateObj.isInit] at h
  | arb q _ _ =>
    refine ⟨q, rfl, ?_⟩
    cases q <;> simp [RegArg.toList, GateObj.regs]
  | _ => exact ⟨_, rfl, by simp [RegArg.toList, GateObj.regs]⟩

theorem getQregMoment_skip {q : Int} {g : GateObj R} {m : List (GateObj R)} {i : Nat}
    (hi : g.isInit = false) (hq : q ∉ g.regs) :
    getQregMoment q (g :: m) i = getQregMoment q m (i + 1) := by
  obtain ⟨a, ha, hsub⟩ := actingOn_regs hi
  rw [getQregMoment, ha]
  cases a with
  | int q' =>
    have hne : ¬ q = q' := by
      rintro rfl
      exact hq (hsub q (by simp [RegArg.toList]))
    simp [bind, Except.bind, hne]
  | list qs =>
    have hne : ¬ q ∈ qs := fun h => hq (hsub q h)
    simp [bind, Except.bind, hne]

theorem Layer.find_ident {n off : Nat} {m : List (GateObj R)} {bs : List β}
    (h : Layer n P off m bs) {q : Nat} (hq : (q : Int) ∈ identRegs m) (hqn : q < n) :
    ∃ m1 d m2 b1 bi b2, m = m1 ++ .ident q d :: m2 ∧ bs = b1 ++ bi :: b2 ∧
      P q 1 (.ident q d) bi ∧ b1.length = m1.length ∧
      (∀ i, getQregMoment q m i = .ok (some (.ident q d, i + m1.length))) ∧
      (∀ g bg, P q 1 g bg → g.isInit = false → g.regs = [(q : Int)] →
        Layer n P off (m1 ++ g :: m2) (b1 ++ bg :: b2)) ∧ off ≤ q ∧
      (∀ g ∈ m1, ¬ InHull g.regs q) ∧ (∀ g ∈ m2, ¬ InHull g.regs q) := by
  induction h with
  | nil => simp [identRegs] at hq
  | @cons off k g b m bs hk hle hinit hcov hP rest ih =>
    have hlater : ∀ (n off : Nat) (m : List (GateObj R)) (bs : List β), Layer n P off m bs →
        ∀ g ∈ m, ∀ q : Nat, q < n → q < off → ¬ InHull g.regs q := by
      intro n off m bs h
      induction h with
      | nil => simp
      | cons hk hle hinit hcov hP rest ih =>
        intro g hg q hqn hqo
        rcases List.mem_cons.1 hg with rfl | hg
        · rw [← hcov q hqn]; omega
        · exact ih g hg q hqn (by omega)
    by_cases hd : ∃ d, g = .ident q d
    · obtain ⟨d, rfl⟩ := hd
      have hoff : off = q ∧ k = 1 := by
        have h1 := (hcov off (by omega)).1 (by omega)
        rw [GateObj.regs, inHull_singleton] at h1
        have hoq : q = off := by omega
        refine ⟨hoq.symm, ?_⟩
        by_contra hk1
        have h2 := (hcov (off + 1) (by omega)).1 (by omega)
        rw [GateObj.regs, inHull_singleton] at h2
        omega
      obtain ⟨rfl, rfl⟩ := hoff
      refine ⟨[], d, m, [], b, bs, rfl, rfl, hP, rfl, ?_, ?_, le_refl _, by simp, ?_⟩
      · intro i
        rw [getQregMoment]
        simp [GateObj.actingOn, bind, Except.bind]
      · intro g bg hg hgi hgr
        refine Layer.cons hk hle hgi ?_ hg rest
        rw [hgr]
        exact hcov
      · intro g hg
        exact hlater _ _ _ _ rest g hg off hqn (by omega)
    · have hq' : (q : Int) ∈ identRegs m := by
        unfold identRegs at hq ⊢
        rw [List.filterMap_cons] at hq
        cases g with
        | ident q' d =>
          simp only [List.mem_cons] at hq
          rcases hq with hq | hq
          · exact absurd ⟨d, by rw [Int.natCast_inj.1 hq]⟩ hd
          · exact hq
        | _ => exact hq
      obtain ⟨m1, d, m2, b1, bi, b2, rfl, rfl, hPi, hlen, hget, hrep, hoff, hm1, hm2⟩ := ih hq'
      have hnot : ¬ InHull g.regs q := by
        rw [← hcov q hqn]; omega
      refine ⟨g :: m1, d, m2, b :: b1, bi, b2, rfl, rfl, hPi, by simp [hlen], ?_, ?_, by omega, ?_, hm2⟩
      · intro i
        rw [getQregMoment_skip hinit, hget (i + 1)]
        · simp; omega
        · intro hmem
          exact hnot ⟨⟨q, hmem, le_refl _⟩, ⟨q, hmem, le_refl _⟩⟩
      · intro g' bg h1 h2 h3
        exact Layer.cons hk hle hinit hcov hP (hrep g' bg h1 h2 h3)
      · intro g' hg'
        rcases List.mem_cons.1 hg' with rfl | hg'
        · exact hnot
        · exact hm1 g' hg'

end

end QuDiet
