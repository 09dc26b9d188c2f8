import Verif.Lemmas.Flow

/-! # Adding a gate to a circuit -/

namespace QuDiet
open Spec

variable {R : Type}

/-! ### `populate_opflow` -/

theorem detectMeas_none (mc : List Nat) (m : List (GateObj R)) (h : ∀ g ∈ m, g.isMeas = false) :
    detectMeas mc m = mc := by
  unfold detectMeas
  have : ∀ (k : Nat), (m.zipIdx k).foldl
      (fun mc gi => if gi.1.isMeas then mc.set gi.2 1 else mc) mc = mc := by
    induction m with
    | nil => simp
    | cons g m ih =>
      intro k
      rw [List.zipIdx_cons, List.foldl_cons, h g (by simp)]
      simp only [Bool.false_eq_true, if_false]
      exact ih (fun g hg => h g (by simp [hg])) _
  exact this 0

theorem populate_measured (f : Flow R) (cur : List (GateObj R)) (hne : f.moments ≠ [])
    (h : f.measCount.all (· ≠ 0) = true) : f.populate cur = .ok (f, false) := by
  unfold Flow.populate
  cases hl : f.moments.getLast? with
  | none => simp [hne] at hl
  | some last => simp only [h, if_true]

theorem populate_plain (f : Flow R) (cur last : List (GateObj R)) (hl : f.moments.getLast? = some last)
    (h : f.measCount.all (· ≠ 0) = false) (hc : cur.find? (·.isHXZ) = none) :
    f.populate cur = .ok (f.append cur, true) := by
  unfold Flow.populate
  simp only [hl, h, Bool.false_eq_true, if_false, hc]

theorem populate_new (f : Flow R) (cur last : List (GateObj R)) (hl : f.moments.getLast? = some last)
    (h : f.measCount.all (· ≠ 0) = false) (g : GateObj R) (hc : cur.find? (·.isHXZ) = some g) (q : Int)
    (ha : g.actingOn = .ok (.int q)) (hq : q ∉ identRegs last) :
    f.populate cur = .ok (f.append cur, true) := by
  unfold Flow.populate
  simp only [hl, h, Bool.false_eq_true, if_false, hc, ha, bind, Except.bind]
  simp [hq]

theorem populate_pack (f : Flow R) (cur last : List (GateObj R)) (hl : f.moments.getLast? = some last)
    (h : f.measCount.all (· ≠ 0) = false) (g : GateObj R) (hc : cur.find? (·.isHXZ) = some g) (q : Int)
    (ha : g.actingOn = .ok (.int q)) (hq : q ∈ identRegs last) (last' : List (GateObj R))
    (hr : replaceIgate last q g = .ok (last', true)) :
    f.populate cur = .ok ({ f with moments := f.moments.dropLast ++ [last'] }, true) := by
  unfold Flow.populate
  simp only [hl, h, Bool.false_eq_true, if_false, hc, ha, bind, Except.bind]
  simp [hq, hr]

theorem find_ids_none (dims : List Nat) (a b : Nat) :
    (ids (R := R) dims a b).find? (·.isHXZ) = none := by
  rw [List.find?_eq_none]
  intro g hg
  obtain ⟨r, _, rfl⟩ := List.mem_map.1 hg
  simp [GateObj.isHXZ]

theorem find_layout (dims : List Nat) (lb ub : Int) (g : GateObj R) :
    (layout dims lb ub g).find? (·.isHXZ)
      = if min dims.length lb.toNat < min dims.length (ub + 1).toNat ∧ g.isHXZ = true
        then some g else none := by
  unfold layout
  by_cases h : min dims.length lb.toNat < min dims.length (ub + 1).toNat
  · simp only [if_pos h, List.find?_append, find_ids_none, Option.none_or]
    rw [List.find?_cons]
    cases hg : g.isHXZ with
    | true => simp [h]
    | false => simp [find_ids_none]
  · simp only [if_neg h, find_ids_none, h, false_and, if_false]

theorem layout_no_meas (dims : List Nat) (lb ub : Int) (g : GateObj R) (hg : g.isMeas = false) :
    ∀ g' ∈ layout dims lb ub g, g'.isMeas = false := by
  have hids : ∀ a b, ∀ g' ∈ ids (R := R) dims a b, g'.isMeas = false := by
    intro a b g' hg'
    obtain ⟨r, _, rfl⟩ := List.mem_map.1 hg'
    rfl
  intro g' hg'
  simp only [layout] at hg'
  split at hg'
  · rcases List.mem_append.1 hg' with h | h
    · exact hids _ _ _ h
    · rcases List.mem_cons.1 h with rfl | h
      · exact hg
      · exact hids _ _ _ h
  · exact hids _ _ _ hg'

/-! ### The invariant of an unmeasured circuit -/

section
variable {β : Type}

/-- An unmeasured circuit on registers `dims`: the preparation moment `initM`, then `layers`. -/
structure Unmeasured (dims : List Nat) (P : Nat → Nat → GateObj R → β → Prop) (c : Circuit R)
    (initM : List (GateObj R)) (layers : List (List (GateObj R) × List β)) : Prop where
  npos : 0 < dims.length
  regDims : c.regDims = dims
  regLength : c.regLength = dims.length
  moments : c.flow.moments = initM :: layers.map Prod.fst
  meas : c.flow.measCount = List.replicate dims.length 0
  lay : ∀ l ∈ layers, Layer dims.length P 0 l.1 l.2
  isInit : ∀ g ∈ initM, g.isInit = true
  noMeas : ∀ l ∈ layers, ∀ g ∈ l.1, g.isMeas = false

theorem Unmeasured.notAll {dims : List Nat} {P : Nat → Nat → GateObj R → β → Prop} {c : Circuit R}
    {initM : List (GateObj R)} {layers : List (List (GateObj R) × List β)}
    (h : Unmeasured dims P c initM layers) : c.flow.measCount.all (· ≠ 0) = false := by
  rw [h.meas]
  obtain ⟨k, hk⟩ : ∃ k, dims.length = k + 1 := ⟨dims.length - 1, by have := h.npos; omega⟩
  rw [hk, List.replicate_succ]
  simp

theorem Unmeasured.last {dims : List Nat} {P : Nat → Nat → GateObj R → β → Prop} {c : Circuit R}
    {initM : List (GateObj R)} {layers : List (List (GateObj R) × List β)}
    (h : Unmeasured dims P c initM layers) :
    (layers = [] ∧ c.flow.moments.getLast? = some initM) ∨
      ∃ ls l, layers = ls ++ [l] ∧ c.flow.moments.getLast? = some l.1 := by
  rcases List.eq_nil_or_concat layers with rfl | ⟨ls, l, rfl⟩
  · left; simp [h.moments]
  · right
    refine ⟨ls, l, by simp, ?_⟩
    rw [h.moments, List.concat_eq_append, List.map_append, ← List.cons_append]
    exact List.getLast?_concat

theorem identRegs_init {m : List (GateObj R)} (h : ∀ g ∈ m, g.isInit = true) : identRegs m = [] := by
  unfold identRegs
  rw [List.filterMap_eq_nil_iff]
  intro g hg
  have := h g hg
  cases g <;> simp_all [GateObj.isInit]

/-- Facts about a gate object and the bounds of its registers. -/
structure GateAt (q : RegArg) (lb ub : Int) (g : GateObj R) : Prop where
  bounds : q.Bounds lb ub
  le : lb ≤ ub
  notInit : g.isInit = false
  notMeas : g.isMeas = false
  notIdent : g.isIdent = false
  lbmem : lb ∈ g.regs
  ubmem : ub ∈ g.regs
  all : ∀ x ∈ g.regs, lb ≤ x ∧ x ≤ ub

theorem hxz_regs {g : GateObj R} (h : g.isHXZ = true) :
    ∃ q : Int, g.actingOn = .ok (.int q) ∧ g.regs = [q] := by
  cases g <;> simp_all [GateObj.isHXZ, GateObj.actingOn, GateObj.regs]

/-- First register covered by a gate between `lb` and `ub`. -/
abbrev lo (dims : List Nat) (lb : Int) : Nat := min dims.length lb.toNat
/-- One past the last register covered. -/
abbrev hi (dims : List Nat) (ub : Int) : Nat := min dims.length (ub + 1).toNat

/-- Adding a gate appends a moment, or replaces an identity in the newest one. -/
theorem addMoment_spec {dims : List Nat} {P : Nat → Nat → GateObj R → β → Prop} {c : Circuit R}
    {initM : List (GateObj R)} {layers : List (List (GateObj R) × List β)}
    (h : Unmeasured dims P c initM layers) {bI : Nat → β}
    (hI : ∀ r < dims.length, P r 1 (.ident r (dims.getD r 0)) (bI r))
    {q : RegArg} {lb ub : Int} {g : GateObj R} (hg : GateAt q lb ub g) (bg : β)
    (hP : lo dims lb < hi dims ub → P (lo dims lb) (hi dims ub - lo dims lb) g bg) :
    ∃ f layers', c.addMoment q g = .ok ({ c with flow := f }, true) ∧
      Unmeasured dims P { c with flow := f } initM layers' ∧
      ((lo dims lb < hi dims ub ∧ layers' = layers ++ [(layout dims lb ub g,
          (List.range' 0 (lo dims lb)).map bI ++ bg ::
            (List.range' (hi dims ub) (dims.length - hi dims ub)).map bI)]) ∨
       (¬ lo dims lb < hi dims ub ∧
          layers' = layers ++ [(layout dims lb ub g, (List.range' 0 dims.length).map bI)]) ∨
       (g.isHXZ = true ∧ lo dims lb < hi dims ub ∧ lb = ub ∧
          ∃ ls m1 d m2 b1 bi b2, layers = ls ++ [(m1 ++ .ident lb.toNat d :: m2, b1 ++ bi :: b2)] ∧
            layers' = ls ++ [(m1 ++ g :: m2, b1 ++ bg :: b2)] ∧ P lb.toNat 1 (.ident lb.toNat d) bi ∧
            b1.length = m1.length ∧ (∀ g ∈ m1, ¬ InHull g.regs lb.toNat) ∧
            (∀ g ∈ m2, ¬ InHull g.regs lb.toNat))) := by
  have hall := h.notAll
  have hdata : c.momentData q g = .ok (layout dims lb ub g) := by
    have := momentData_eq c (by rw [h.regLength, h.regDims]) hg.bounds hg.le g
    rwa [h.regDims] at this
  have happend : ∃ layers', Unmeasured dims P { c with flow := c.flow.append (layout dims lb ub g) } initM layers' ∧
      ((lo dims lb < hi dims ub ∧ layers' = layers ++ [(layout dims lb ub g,
          (List.range' 0 (lo dims lb)).map bI ++ bg ::
            (List.range' (hi dims ub) (dims.length - hi dims ub)).map bI)]) ∨
       (¬ lo dims lb < hi dims ub ∧
          layers' = layers ++ [(layout dims lb ub g, (List.range' 0 dims.length).map bI)])) := by
    have hmk : ∀ bs, Layer dims.length P 0 (layout dims lb ub g) bs →
        Unmeasured dims P { c with flow := c.flow.append (layout dims lb ub g) } initM
          (layers ++ [(layout dims lb ub g, bs)]) := by
      intro bs hbs
      refine ⟨h.npos, h.regDims, h.regLength, ?_, ?_, ?_, h.isInit, ?_⟩
      · simp [Flow.append, h.moments]
      · simp only [Flow.append]
        rw [detectMeas_none _ _ (layout_no_meas dims lb ub g hg.notMeas)]
        exact h.meas
      · intro l hl
        rcases List.mem_append.1 hl with hl | hl
        · exact h.lay l hl
        · rw [List.mem_singleton] at hl
          subst hl
          exact hbs
      · intro l hl
        rcases List.mem_append.1 hl with hl | hl
        · exact h.noMeas l hl
        · rw [List.mem_singleton] at hl
          subst hl
          exact layout_no_meas dims lb ub g hg.notMeas
    by_cases hin : lo dims lb < hi dims ub
    · exact ⟨_, hmk _ (Layer.layout_in hI hg.notInit hg.lbmem hg.ubmem hg.all hin (hP hin)), .inl ⟨hin, rfl⟩⟩
    · exact ⟨_, hmk _ (Layer.layout_out hI hin), .inr ⟨hin, rfl⟩⟩
  have hfin : ∀ last, c.flow.moments.getLast? = some last →
      c.flow.populate (layout dims lb ub g) = .ok (c.flow.append (layout dims lb ub g), true) →
      ∃ f layers', c.addMoment q g = .ok ({ c with flow := f }, true) ∧
      Unmeasured dims P { c with flow := f } initM layers' ∧
      ((lo dims lb < hi dims ub ∧ layers' = layers ++ [(layout dims lb ub g,
          (List.range' 0 (lo dims lb)).map bI ++ bg ::
            (List.range' (hi dims ub) (dims.length - hi dims ub)).map bI)]) ∨
       (¬ lo dims lb < hi dims ub ∧
          layers' = layers ++ [(layout dims lb ub g, (List.range' 0 dims.length).map bI)]) ∨
       (g.isHXZ = true ∧ lo dims lb < hi dims ub ∧ lb = ub ∧
          ∃ ls m1 d m2 b1 bi b2, layers = ls ++ [(m1 ++ .ident lb.toNat d :: m2, b1 ++ bi :: b2)] ∧
            layers' = ls ++ [(m1 ++ g :: m2, b1 ++ bg :: b2)] ∧ P lb.toNat 1 (.ident lb.toNat d) bi ∧
            b1.length = m1.length ∧ (∀ g ∈ m1, ¬ InHull g.regs lb.toNat) ∧
            (∀ g ∈ m2, ¬ InHull g.regs lb.toNat))) := by
    intro last _ hp
    obtain ⟨layers', h1, h2⟩ := happend
    refine ⟨_, layers', ?_, h1, ?_⟩
    · simp only [Circuit.addMoment, hdata, bind, Except.bind, hp]
    · rcases h2 with h2 | h2
      · exact .inl h2
      · exact .inr (.inl h2)
  by_cases hx : lo dims lb < hi dims ub ∧ g.isHXZ = true
  · have hfind : (layout dims lb ub g).find? (·.isHXZ) = some g := by
      rw [find_layout, if_pos hx]
    obtain ⟨q0, hact, hregs⟩ := hxz_regs hx.2
    have hlq : lb = q0 := by have := hg.lbmem; rw [hregs] at this; simpa using this
    have huq : ub = q0 := by have := hg.ubmem; rw [hregs] at this; simpa using this
    subst hlq
    subst huq
    have hin := hx.1
    simp only [lo, hi] at hin
    have hlb0 : 0 ≤ ub := by omega
    have hlbn : ub.toNat < dims.length := by omega
    have hcast : ((ub.toNat : Nat) : Int) = ub := by omega
    rcases h.last with ⟨rfl, hl⟩ | ⟨ls, l, rfl, hl⟩
    · apply hfin _ hl
      apply populate_new _ _ _ hl hall g hfind ub hact
      rw [identRegs_init h.isInit]
      simp
    · by_cases hid : ub ∈ identRegs l.1
      · have hlay := h.lay l (by simp)
        rw [← hcast] at hid
        obtain ⟨m1, d, m2, b1, bi, b2, hm, hbs, hPi, hlen, hget, hrep, _, hm1, hm2⟩ :=
          hlay.find_ident hid hlbn
        rw [hcast] at hid
        have hr : replaceIgate l.1 ub g = .ok (m1 ++ g :: m2, true) := by
          unfold replaceIgate
          have := hget 0
          rw [hcast, Nat.zero_add] at this
          simp only [this, bind, Except.bind, GateObj.isIdent, if_true]
          rw [hm]
          congr 2
          rw [List.set_append_right _ _ (le_refl _)]
          simp
        have hpop := populate_pack _ _ _ hl hall g hfind ub hact hid _ hr
        have hnew : Layer dims.length P 0 (m1 ++ g :: m2) (b1 ++ bg :: b2) := by
          apply hrep g bg _ hg.notInit (by rw [hregs, hcast])
          have := hP hx.1
          simp only [lo, hi] at this
          rwa [show min dims.length ub.toNat = ub.toNat by omega,
            show min dims.length (ub + 1).toNat - ub.toNat = 1 by omega] at this
        refine ⟨{ c.flow with moments := c.flow.moments.dropLast ++ [m1 ++ g :: m2] },
          ls ++ [(m1 ++ g :: m2, b1 ++ bg :: b2)], ?_, ?_, .inr (.inr ⟨hx.2, hx.1, rfl, ?_⟩)⟩
        · simp only [Circuit.addMoment, hdata, bind, Except.bind, hpop]
        · refine ⟨h.npos, h.regDims, h.regLength, ?_, h.meas, ?_, h.isInit, ?_⟩
          · simp only [h.moments, List.map_append, List.map_cons, List.map_nil]
            rw [← List.cons_append, List.dropLast_concat]
            rfl
          · intro l' hl'
            rcases List.mem_append.1 hl' with hl' | hl'
            · exact h.lay l' (by simp [hl'])
            · rw [List.mem_singleton] at hl'
              subst hl'
              exact hnew
          · intro l' hl'
            rcases List.mem_append.1 hl' with hl' | hl'
            · exact h.noMeas l' (by simp [hl'])
            · rw [List.mem_singleton] at hl'
              subst hl'
              intro g' hg'
              have hold := h.noMeas l (by simp)
              rw [hm] at hold
              rcases List.mem_append.1 hg' with hg' | hg'
              · exact hold g' (by simp [hg'])
              · rcases List.mem_cons.1 hg' with rfl | hg'
                · exact hg.notMeas
                · exact hold g' (by simp [hg'])
        · refine ⟨ls, m1, d, m2, b1, bi, b2, ?_, rfl, hPi, hlen, hm1, hm2⟩
          rw [← hm, ← hbs]
      · apply hfin _ hl
        exact populate_new _ _ _ hl hall g hfind ub hact hid
  · have hfind : (layout dims lb ub g).find? (·.isHXZ) = none := by
      rw [find_layout, if_neg hx]
    rcases h.last with ⟨rfl, hl⟩ | ⟨ls, l, rfl, hl⟩
    · exact hfin _ hl (populate_plain _ _ _ hl hall hfind)
    · exact hfin _ hl (populate_plain _ _ _ hl hall hfind)

end

end QuDiet
