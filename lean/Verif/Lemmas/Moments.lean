import Verif.Lemmas.Script
import Verif.Moments

/-! # Layers made by hand -/

namespace QuDiet
open Spec

variable {R : Type} [CommRing R]

/-! ### Blocks one after the other -/

theorem blockAct_sum {α : Type} (bs : List (Block R)) (l : List α) (c : α → R) (φ : α → State R)
    (s : List Nat) :
    blockAct bs (fun t => (l.map fun a => c a * φ a t).sum) s
      = (l.map fun a => c a * blockAct bs (φ a) s).sum := by
  induction bs generalizing φ s with
  | nil => rfl
  | cons b bs ih =>
    obtain ⟨ds, U⟩ := b
    simp only [blockAct]
    simp only [ih (fun a r => φ a (_ ++ r)), ← List.sum_map_mul_left]
    rw [sum_comm]
    apply map_congr_sum
    intro a _
    apply map_congr_sum
    intro m _
    ring

/-- The first block of a layer may be applied first. -/
theorem blockAct_first (pre ds : List Nat) (U : Nat → Nat → R) (rest : List (Block R)) (ψ : State R) :
    EqOn (pre ++ ds ++ blockDims rest)
      (blockAct (idBlocks pre ++ (ds, U) :: rest) ψ)
      (blockAct (idBlocks (pre ++ ds) ++ rest)
        (onBlock (pre ++ ds ++ blockDims rest) pre.length ds.length U ψ)) := by
  intro s hs
  obtain ⟨h12, h3⟩ := hs.split
  obtain ⟨h1, h2⟩ := h12.split
  set s12 := s.take (pre ++ ds).length with hs12
  set s3 := s.drop (pre ++ ds).length with hs3
  set s1 := s12.take pre.length with hs1
  set s2 := s12.drop pre.length with hs2
  have e12 : s12 = s1 ++ s2 := (List.take_append_drop _ _).symm
  have e : s = s1 ++ s2 ++ s3 := by rw [← e12, List.take_append_drop]
  rw [e]
  have l1 : s1.length = pre.length := h1.1
  have l2 : s2.length = ds.length := h2.1
  rw [List.append_assoc s1 s2 s3, blockAct_idBlocks_append _ _ _ _ _ h1, ← List.append_assoc,
    blockAct_idBlocks_append _ _ _ _ _ (by rw [← e12]; exact h12)]
  have e2 : ((pre ++ ds ++ blockDims rest).drop pre.length).take ds.length = ds := by
    rw [List.append_assoc, List.drop_left, List.take_left]
  have key : ∀ r : List Nat, onBlock (pre ++ ds ++ blockDims rest) pre.length ds.length U ψ (s1 ++ s2 ++ r)
      = ((states ds).map fun m => U (value ds s2) (value ds m) * ψ (s1 ++ (m ++ r))).sum := by
    intro r
    simp only [onBlock, e2]
    have a1 : ((s1 ++ s2 ++ r).drop pre.length).take ds.length = s2 := by
      rw [List.append_assoc, List.drop_left' l1, List.take_left' l2]
    have a2 : (s1 ++ s2 ++ r).take pre.length = s1 := by rw [List.append_assoc, List.take_left' l1]
    have a3 : (s1 ++ s2 ++ r).drop (pre.length + ds.length) = r := by
      rw [List.drop_left' (by simp [l1, l2])]
    simp only [a1, a2, a3]
    simp only [List.append_assoc]
  simp only [key]
  rw [blockAct_sum rest (states ds) (fun m => U (value ds s2) (value ds m)) (fun m r => ψ (s1 ++ (m ++ r)))]
  simp only [blockAct]
  rw [List.take_left' l2, List.drop_left' l2]

/-! ### Layers -/

theorem op_regs {dims : List Nat} {k : Call R} {g : GateObj R} (h : k.op dims = .ok g) : g.regs = k.regs := by
  cases k with
  | toffoli cs t p =>
    simp only [Call.op, bind, Except.bind] at h
    split at h
    · cases h
    · cases h; rfl
  | gate U q k => cases q <;> (cases h; rfl)
  | measure q => cases h
  | measureAll => cases h
  | _ => cases h; rfl

theorem op_hxz {dims : List Nat} {k : Call R} {g : GateObj R} (h : k.op dims = .ok g) :
    g.isHXZ = k.isHXZ := by
  cases k with
  | toffoli cs t p =>
    simp only [Call.op, bind, Except.bind] at h
    split at h
    · cases h
    · cases h; rfl
  | gate U q k => cases q <;> (cases h; rfl)
  | measure q => cases h
  | measureAll => cases h
  | _ => cases h; rfl

theorem idle_eq (dims : List Nat) (a b : Nat) : idle (R := R) dims a b = ids dims a b := rfl

theorem identRegs_split (m m' : List (GateObj R)) : identRegs (m ++ m') = identRegs m ++ identRegs m' := by
  simp [identRegs]

theorem mem_identRegs_ids {dims : List Nat} {a b : Nat} {x : Int} :
    x ∈ identRegs (ids (R := R) dims a b) ↔ ∃ r : Nat, x = r ∧ a ≤ r ∧ r < b := by
  simp only [identRegs, ids, List.mem_filterMap, List.mem_map, List.mem_range'_1]
  constructor
  · rintro ⟨g, ⟨r, hr, rfl⟩, hx⟩
    simp at hx
    exact ⟨r, hx.symm, by omega, by omega⟩
  · rintro ⟨r, rfl, h1, h2⟩
    exact ⟨_, ⟨r, by omega, rfl⟩, rfl⟩

theorem not_covers_of_ascending {off : Nat} {ks : List (Call R)} (h : Ascending off ks) :
    ∀ k ∈ ks, ∀ r : Nat, r < off → ¬ k.covers r := by
  induction ks generalizing off with
  | nil => simp
  | cons k ks ih =>
    obtain ⟨h1, h2⟩ := h
    intro k' hk' r hr hc
    rcases List.mem_cons.1 hk' with rfl | hk'
    · exact absurd hc.1 (by omega)
    · exact ih h2 k' hk' r (by omega) hc

variable [StarRing R] [DecidableEq R] [UnitaryCheck R]

theorem Call.Valid.inRange {dims : List Nat} {k : Call R} (h : k.Valid dims) : ∀ q ∈ k.regs, InRange dims q := by
  cases k with
  | h q k => simpa [Call.regs] using h.1
  | x q k p => simpa [Call.regs] using h.1
  | z q k => simpa [Call.regs] using h.1
  | cx c t p => simpa [Call.regs] using ⟨h.1, h.2⟩
  | toffoli cs t p =>
    intro q hq
    simp only [Call.regs, List.mem_append, List.mem_singleton] at hq
    rcases hq with hq | rfl
    · exact h.2.1 q hq
    · exact h.1
  | gate U q k =>
    cases q with
    | int q => simpa [Call.regs] using h.1
    | list qs => exact h.2.1
  | measure q => exact h.elim
  | measureAll => exact h.elim

/-- A valid call's operator on its registers. -/
theorem op_slot [Nontrivial R] {N : Numerics R} (hN : N.Sized) {dims : List Nat} (h2 : ∀ d ∈ dims, 2 ≤ d)
    (hpos : 0 < dims.length) {k : Call R} (hk : k.Valid dims) :
    ∃ g b, k.op dims = .ok g ∧ g.isInit = false ∧ g.isMeas = false ∧ g.isIdent = false ∧
      0 < (spanOf k.regs).2 ∧ (spanOf k.regs).1 + (spanOf k.regs).2 ≤ dims.length ∧
      (∀ r : Nat, r < dims.length → (((spanOf k.regs).1 ≤ r ∧ r < (spanOf k.regs).1 + (spanOf k.regs).2)
        ↔ InHull g.regs r)) ∧
      GateOK N dims (spanOf k.regs).1 (spanOf k.regs).2 g b ∧
      ∀ ψ, EqOn dims (onBlock dims (spanOf k.regs).1 (spanOf k.regs).2 b.2 ψ) (meaning N dims k ψ) := by
  have hf := hk.applied h2
  obtain ⟨ra, lb, ub, g, hE⟩ := emits_all (N := N) hN h2 hpos
    (c := freshCircuit (.list (dims.map Int.ofNat)) dims [] none) (k := k) rfl rfl (fun _ => list_toRegs dims)
    hk.not_measureAll (by rw [hf]; simp) (by rw [hf]; simp)
  obtain ⟨hlt, b, hb, hψ⟩ := hE.applied hf
  have hregs := op_regs hE.op
  have hg := hE.gateAt
  have hne : k.regs ≠ [] := by
    intro h
    have := hg.lbmem
    rw [hregs, h] at this
    simp at this
  obtain ⟨lb', ub', hmin, hmax, m1, m2, b1, b2⟩ := exists_bounds hne
  have hspan := spanOf_eq hmin hmax
  rw [← hregs] at m1 m2 b1 b2
  have hlb : lb' = lb := by
    have := b1 lb hg.lbmem
    have := (hg.all _ m1).1
    omega
  have hub : ub' = ub := by
    have := b2 ub hg.ubmem
    have := (hg.all _ m2).2
    omega
  subst hlb
  subst hub
  have r1 := hk.inRange lb' (hregs ▸ m1)
  have r2 := hk.inRange ub' (hregs ▸ m2)
  obtain ⟨e1, e2, e3, e4⟩ := lohi_in (dims := dims) r1.1 hg.le r2.2
  rw [e2, e1] at hb
  rw [e2, e1] at hψ
  have hle := hg.le
  have r10 := r1.1
  refine ⟨g, b, hE.op, hg.notInit, hg.notMeas, hg.notIdent, by rw [hspan]; simp only; omega,
    by rw [hspan]; exact e4, ?_, by rw [hspan]; exact hb, by rw [hspan]; exact hψ⟩
  intro r hr
  rw [hspan]
  simp only
  constructor
  · intro h
    exact ⟨⟨lb', m1, by omega⟩, ⟨ub', m2, by omega⟩⟩
  · rintro ⟨⟨x, hx, hx'⟩, ⟨y, hy, hy'⟩⟩
    have := hg.all x hx
    have := hg.all y hy
    omega

theorem ids_find {dims : List Nat} {a b : Nat} {m : List (GateObj R)} :
    (ids dims a b ++ m).find? (·.isHXZ) = m.find? (·.isHXZ) := by
  rw [List.find?_append, find_ids_none]
  simp

theorem fold_congr [Nontrivial R] {N : Numerics R} (hN : N.Sized) {dims : List Nat} (h2 : ∀ d ∈ dims, 2 ≤ d)
    (hpos : 0 < dims.length) {ks : List (Call R)} (hv : ∀ k ∈ ks, k.Valid dims) {ψ φ : State R}
    (h : EqOn dims ψ φ) :
    EqOn dims (ks.foldl (fun ψ k => meaning N dims k ψ) ψ) (ks.foldl (fun ψ k => meaning N dims k ψ) φ) := by
  induction ks generalizing ψ φ with
  | nil => exact h
  | cons k ks ih =>
    rw [List.foldl_cons, List.foldl_cons]
    apply ih (fun k hk => hv k (by simp [hk]))
    obtain ⟨g, b, _, _, _, _, _, hle, _, _, hψ⟩ := op_slot hN h2 hpos (hv k (by simp))
    exact ((hψ ψ).symm'.trans' (onBlock_congr hle b.2 h)).trans' (hψ φ)

/-- A layer made by hand applies its gates one after the other. -/
theorem layerFrom_ok [Nontrivial R] {N : Numerics R} (hN : N.Sized) {dims : List Nat} (h2 : ∀ d ∈ dims, 2 ≤ d)
    (hpos : 0 < dims.length) {ks : List (Call R)} (hks : ∀ k ∈ ks, k.Valid dims) {off : Nat}
    (hoff : off ≤ dims.length) (hasc : Ascending off ks) :
    ∃ m bs, layerFrom dims off ks = .ok m ∧ Layer dims.length (Slot N dims) off m bs ∧ none ∉ bs ∧
      (∀ g ∈ m, g.isMeas = false) ∧
      (∀ x, x ∈ identRegs m ↔ ∃ r : Nat, x = r ∧ off ≤ r ∧ r < dims.length ∧ ∀ k ∈ ks, ¬ k.covers r) ∧
      (m.find? (·.isHXZ) = none ∧ ks.find? (·.isHXZ) = none ∨
        ∃ g k, m.find? (·.isHXZ) = some g ∧ ks.find? (·.isHXZ) = some k ∧ k.op dims = .ok g) ∧
      ∀ ψ, EqOn dims (blockAct (idBlocks (dims.take off) ++ bs.filterMap id) ψ)
        (ks.foldl (fun ψ k => meaning N dims k ψ) ψ) := by
  have hI : ∀ r < dims.length, Slot N dims r 1 (.ident r (dims.getD r 0)) (idSlot dims r) :=
    fun r hr => slot_ident N dims r hr
  induction ks generalizing off with
  | nil =>
    have hl := Layer.ids_append hI hoff (Layer.nil (P := Slot N dims))
    refine ⟨_, _, rfl, by simpa [idle_eq] using hl, ?_, ?_, ?_, ?_, ?_⟩
    · simpa using none_not_idSlots dims (List.range' off (dims.length - off))
    · intro g hg
      rw [idle_eq, ids] at hg
      obtain ⟨r, _, rfl⟩ := List.mem_map.1 hg
      rfl
    · intro x
      rw [idle_eq, mem_identRegs_ids]
      simp
    · exact .inl ⟨by rw [idle_eq, find_ids_none], rfl⟩
    · intro ψ
      rw [idSlots_filterMap dims off _ (by omega)]
      have e : idBlocks (R := R) (dims.take off) ++ idBlocks (slice dims off (dims.length - off))
          = idBlocks dims := by
        unfold idBlocks
        rw [← List.map_append, slice, ← List.take_add, show off + (dims.length - off) = dims.length by omega,
          List.take_length]
      rw [e]
      exact blockAct_idBlocks dims ψ
  | cons k ks ih =>
    obtain ⟨ha, hasc⟩ := hasc
    obtain ⟨g, b, hop, hi, hm, hid, hk0, hkle, hcov, hok, hψ⟩ := op_slot hN h2 hpos (hks k (by simp))
    set lo := (spanOf k.regs).1 with hlo
    set len := (spanOf k.regs).2 with hlen
    obtain ⟨m, bs, hlay, hL, hnone, hmeas, hident, hfind, hact⟩ :=
      ih (fun k hk => hks k (by simp [hk])) hkle hasc
    have hL' : Layer dims.length (Slot N dims) lo (g :: m) (some b :: bs) :=
      Layer.cons hk0 hkle hi hcov hok hL
    have hL'' := Layer.ids_append hI ha hL'
    refine ⟨_, _, ?_, hL'', ?_, ?_, ?_, ?_, ?_⟩
    · simp only [layerFrom, hop, ← hlo, ← hlen, hlay, bind, Except.bind, idle_eq]
    · intro h
      rcases List.mem_append.1 h with h | h
      · exact none_not_idSlots dims _ h
      · simp at h
        exact hnone h
    · intro g' hg'
      rcases List.mem_append.1 hg' with hg' | hg'
      · rw [ids] at hg'
        obtain ⟨r, _, rfl⟩ := List.mem_map.1 hg'
        rfl
      · rcases List.mem_cons.1 hg' with rfl | hg'
        · exact hm
        · exact hmeas g' hg'
    · intro x
      have hg0 : identRegs (g :: m) = identRegs m := by
        cases g <;> first | rfl | (simp [GateObj.isIdent] at hid)
      rw [identRegs_split, List.mem_append, hg0, mem_identRegs_ids, hident]
      constructor
      · rintro (⟨r, rfl, h1, h3⟩ | ⟨r, rfl, h1, h3, h4⟩)
        · refine ⟨r, rfl, h1, by omega, ?_⟩
          intro k' hk' hc
          rcases List.mem_cons.1 hk' with rfl | hk'
          · have := hc.1
            omega
          · exact not_covers_of_ascending hasc k' hk' r (by omega) hc
        · refine ⟨r, rfl, by omega, h3, ?_⟩
          intro k' hk' hc
          rcases List.mem_cons.1 hk' with rfl | hk'
          · have := hc.2
            omega
          · exact h4 k' hk' hc
      · rintro ⟨r, rfl, h1, h3, h4⟩
        have hn := h4 k (by simp)
        unfold Call.covers at hn
        by_cases hr : r < lo
        · exact .inl ⟨r, rfl, h1, hr⟩
        · exact .inr ⟨r, rfl, by omega, h3, fun k' hk' => h4 k' (by simp [hk'])⟩
    · have := op_hxz hop
      rw [ids_find, List.find?_cons, List.find?_cons, ← this]
      cases hh : g.isHXZ with
      | true => exact .inr ⟨g, k, rfl, rfl, hop⟩
      | false => exact hfind
    · intro ψ
      obtain ⟨hb1, hb2, _⟩ := hok
      obtain ⟨_, hbd⟩ := hL.good hnone
      have e1 : ((List.range' off (lo - off)).map (idSlot (R := R) dims) ++ some b :: bs).filterMap id
          = idBlocks (slice dims off (lo - off)) ++ b :: bs.filterMap id := by
        rw [List.filterMap_append, idSlots_filterMap dims off _ (by omega)]
        rfl
      have e2 : idBlocks (R := R) (dims.take off) ++ idBlocks (slice dims off (lo - off)) = idBlocks (dims.take lo) := by
        unfold idBlocks
        rw [← List.map_append, slice, ← List.take_add, show off + (lo - off) = lo by omega]
      rw [e1, ← List.append_assoc, e2]
      obtain ⟨bd, bU⟩ := b
      simp only at hb1
      subst hb1
      have hdims : dims.take lo ++ slice dims lo len ++ blockDims (bs.filterMap id) = dims := by
        rw [hbd]
        exact (dims_split dims lo len).symm
      have l1 : (dims.take lo).length = lo := by simp; omega
      have l2 : (slice dims lo len).length = len := slice_length hkle
      have key := blockAct_first (dims.take lo) (slice dims lo len) bU (bs.filterMap id) ψ
      rw [hdims, l1, l2] at key
      have e3 : dims.take lo ++ slice dims lo len = dims.take (lo + len) := by rw [slice, ← List.take_add]
      rw [e3] at key
      refine key.trans' ((hact _).trans' ?_)
      rw [List.foldl_cons]
      exact fold_congr hN h2 hpos (fun k hk => hks k (by simp [hk])) (hψ ψ)

/-! ### Handing over layers -/

theorem detectAny_none (mc : List Nat) (m : List (GateObj R)) (h : ∀ g ∈ m, g.isMeas = false) :
    detectAny mc m.zipIdx = (mc, .ok ()) := by
  have key : ∀ n, detectAny mc (m.zipIdx n) = (mc, .ok ()) := by
    induction m with
    | nil => intro n; rfl
    | cons g m ih =>
      intro n
      rw [List.zipIdx_cons, detectAny, h g (by simp)]
      exact ih (fun g hg => h g (by simp [hg])) _
  exact key 0

theorem addAny_ok (f : Flow R) (m : List (GateObj R)) (h : ∀ g ∈ m, g.isMeas = false) :
    f.addAny f.measCount m = ({ f with moments := f.moments ++ [m] }, .ok .added) := by
  unfold Flow.addAny
  rw [detectAny_none _ _ h]

theorem feedOne_plain {f : Flow R} {m last : List (GateObj R)} (hl : f.moments.getLast? = some last)
    (h : f.measCount.all (· ≠ 0) = false) (hc : m.find? (·.isHXZ) = none)
    (hm : ∀ g ∈ m, g.isMeas = false) :
    f.feedOne m = ({ f with moments := f.moments ++ [m] }, .ok .added) := by
  unfold Flow.feedOne
  simp only [hl, h, Bool.false_eq_true, if_false, hc, addAny_ok f m hm]

theorem feedOne_new {f : Flow R} {m last : List (GateObj R)} (hl : f.moments.getLast? = some last)
    (h : f.measCount.all (· ≠ 0) = false) {g : GateObj R} (hc : m.find? (·.isHXZ) = some g) {q : Int}
    (ha : g.actingOn = .ok (.int q)) (hq : q ∉ identRegs last) (hm : ∀ g ∈ m, g.isMeas = false) :
    f.feedOne m = ({ f with moments := f.moments ++ [m] }, .ok .added) := by
  unfold Flow.feedOne
  simp only [hl, h, Bool.false_eq_true, if_false, hc, ha]
  simp [hq, addAny_ok f m hm]

theorem feedOne_join {f : Flow R} {m last : List (GateObj R)} (hl : f.moments.getLast? = some last)
    (h : f.measCount.all (· ≠ 0) = false) {g : GateObj R} (hc : m.find? (·.isHXZ) = some g) {q : Int}
    (ha : g.actingOn = .ok (.int q)) (hq : q ∈ identRegs last) {last' : List (GateObj R)}
    (hr : replaceIgate last q g = .ok (last', true)) :
    f.feedOne m = ({ f with moments := f.moments.dropLast ++ [last'] }, .ok .joined) := by
  unfold Flow.feedOne
  simp only [hl, h, Bool.false_eq_true, if_false, hc, ha]
  simp [hq, hr]

section
variable {N : Numerics R} {dims : List Nat} {ψ0 : State R} {c : Circuit R} {initM : List (GateObj R)}
  {ks : List (Call R)} {layers : List (List (GateObj R) × List (Option (Block R)))}

/-- The idle registers of the newest layer, whose gates are `newest`. -/
def Newest (dims : List Nat) (c : Circuit R) (newest : Option (List (Call R))) : Prop :=
  ∃ last, c.flow.moments.getLast? = some last ∧
    ∀ x, x ∈ identRegs last ↔ ∃ L, newest = some L ∧ ∃ r : Nat, x = r ∧ r < dims.length ∧
      ∀ k ∈ L, ¬ k.covers r

theorem sub_good (h2 : ∀ d ∈ dims, 2 ≤ d) {L : List (Call R)} (hv : ∀ k ∈ L, k.Valid dims) :
    applied N dims (ks ++ L) ψ0 = L.foldl (fun ψ k => meaning N dims k ψ) (applied N dims ks ψ0) := by
  unfold applied
  rw [List.filter_append, List.foldl_append]
  congr 1
  rw [List.filter_eq_self.2]
  intro k hk
  simp [(hv k hk).applied h2]

/-- Handing over a layer that does not join the newest one. -/
theorem Inv.added [Nontrivial R] (hN : N.Sized) (h2 : ∀ d ∈ dims, 2 ≤ d)
    (hI : Inv N dims ψ0 c initM ks layers) {L : List (Call R)} (hv : ∀ k ∈ L, k.Valid dims)
    (hk : ∀ k ∈ ks, k.Valid dims)
    {m : List (GateObj R)} {bs : List (Option (Block R))}
    (hL : Layer dims.length (Slot N dims) 0 m bs) (hnone : none ∉ bs) (hmeas : ∀ g ∈ m, g.isMeas = false)
    (hact : ∀ ψ, EqOn dims (blockAct (bs.filterMap id) ψ) (L.foldl (fun ψ k => meaning N dims k ψ) ψ)) :
    Inv N dims ψ0 { c with flow := { c.flow with moments := c.flow.moments ++ [m] } } initM (ks ++ L)
      (layers ++ [(m, bs)]) := by
  have hu := hI.unm
  have hall : ∀ k ∈ ks ++ L, fate dims k ≠ .broken := by
    intro k hk'
    rcases List.mem_append.1 hk' with h | h
    · rw [(hk k h).applied h2]; simp
    · rw [(hv k h).applied h2]; simp
  refine ⟨⟨hu.npos, hu.regDims, hu.regLength, ?_, hu.meas, ?_, hu.isInit, ?_⟩, ?_, ?_⟩
  · simp [hu.moments]
  · intro l hl
    rcases List.mem_append.1 hl with hl | hl
    · exact hu.lay l hl
    · rw [List.mem_singleton] at hl
      subst hl
      exact hL
  · intro l hl
    rcases List.mem_append.1 hl with hl | hl
    · exact hu.noMeas l hl
    · rw [List.mem_singleton] at hl
      subst hl
      exact hmeas
  · rintro ⟨k, hk', hf⟩
    exact absurd hf (hall k hk')
  · intro _
    obtain ⟨h1, h3⟩ := hI.good fun k hk' => hall k (by simp [hk'])
    refine ⟨?_, ?_⟩
    · intro l hl
      rcases List.mem_append.1 hl with hl | hl
      · exact h1 l hl
      · rw [List.mem_singleton] at hl
        subst hl
        exact hnone
    · rw [sem_snoc, sub_good h2 hv]
      exact (hact _).trans' (fold_congr hN h2 hu.npos hv h3)

/-- Handing over a layer whose first `h`, `x` or `z` finds room: the same as calling that gate. -/
theorem Inv.joined [Nontrivial R] (hN : N.Sized) (h2 : ∀ d ∈ dims, 2 ≤ d)
    (hI : Inv N dims ψ0 c initM ks layers) {k : Call R} (hv : k.Valid dims) (hx : k.isHXZ = true)
    (hq : (∃ cs t p, k = .toffoli cs t p) → c.qregs.seq = dims)
    {newest : Option (List (Call R))} (hnew : Newest dims c newest) (hroom : Room newest k)
    {g : GateObj R} (hop : k.op dims = .ok g) {m : List (GateObj R)} (hc : m.find? (·.isHXZ) = some g)
    (rest : List (List (GateObj R))) :
    c.feed (m :: rest) = ((c.call k).1, .ok true) ∧ Newest dims (c.call k).1 (newest.map (· ++ [k])) := by
  obtain ⟨last, hl, hid⟩ := hnew
  obtain ⟨L, rfl, hL⟩ := hroom
  have hgx : g.isHXZ = true := by rw [op_hxz hop]; exact hx
  obtain ⟨q, hact, hregs⟩ := hxz_regs hgx
  have hkregs : k.regs = [q] := by rw [← op_regs hop, hregs]
  have hqr := hv.inRange q (by simp [hkregs])
  have hcast : ((q.toNat : Nat) : Int) = q := by have := hqr.1; omega
  have hqn : q.toNat < dims.length := by have := hqr.1; have := hqr.2; omega
  have hqid : q ∈ identRegs last :=
    (hid q).2 ⟨L, rfl, q.toNat, hcast.symm, hqn, fun k' hk' => hL q (by simp [hkregs]) k' hk'⟩
  have hall := hI.unm.notAll
  obtain ⟨ls, l, hls, hll⟩ : ∃ ls l, layers = ls ++ [l] ∧ c.flow.moments.getLast? = some l.1 := by
    rcases hI.unm.last with ⟨_, hl'⟩ | h
    · rw [hl] at hl'
      injection hl' with hl'
      rw [hl', identRegs_init hI.unm.isInit] at hqid
      simp at hqid
    · exact h
  have e : last = l.1 := by rw [hl] at hll; injection hll
  have hlay := hI.unm.lay l (by simp [hls])
  rw [← e] at hlay
  obtain ⟨m1, d, m2, b1, bi, b2, hm, hbs, hPi, hlen, hget, _, _, hm1, hm2⟩ :=
    hlay.find_ident (q := q.toNat) (by rw [hcast]; exact hqid) hqn
  have hr : replaceIgate last q g = .ok (m1 ++ g :: m2, true) := by
    unfold replaceIgate
    have := hget 0
    rw [hcast, Nat.zero_add] at this
    simp only [this, bind, Except.bind, GateObj.isIdent, if_true]
    rw [hm]
    congr 2
    rw [List.set_append_right _ _ (le_refl _)]
    simp
  have hfeed : c.feed (m :: rest) =
      ({ c with flow := { c.flow with moments := c.flow.moments.dropLast ++ [m1 ++ g :: m2] } }, .ok true) := by
    simp only [Circuit.feed, Flow.feed, feedOne_join hl hall hc hact hqid hr]
  have hf := hv.applied h2
  obtain ⟨ra, lb, ub, g', hE⟩ := emits_all (N := N) hN h2 hI.unm.npos hI.unm.regDims hI.unm.regLength hq
    (k := k) hv.not_measureAll (by rw [hf]; simp) (by rw [hf]; simp)
  have hgg : g' = g := by have := hE.op; rw [hop] at this; injection this with this; exact this.symm
  subst hgg
  have hlb : lb = q := by have := hE.gateAt.lbmem; rw [hregs] at this; simpa using this
  have hub : ub = q := by have := hE.gateAt.ubmem; rw [hregs] at this; simpa using this
  have hdata : c.momentData ra g' = .ok (layout dims lb ub g') := by
    have := momentData_eq c (by rw [hI.unm.regLength, hI.unm.regDims]) hE.gateAt.bounds hE.gateAt.le g'
    rwa [hI.unm.regDims] at this
  have hfind : (layout dims lb ub g').find? (·.isHXZ) = some g' := by
    rw [find_layout, if_pos ⟨(hE.applied hf).1, hgx⟩]
  have hpop := populate_pack _ _ _ hl hall g' hfind q hact hqid _ hr
  have hcall : c.call k =
      ({ c with flow := { c.flow with moments := c.flow.moments.dropLast ++ [m1 ++ g' :: m2] } }, .ok true) := by
    unfold Circuit.call
    rw [hE.call _ (by simp only [Circuit.addMoment, hdata, bind, Except.bind, hpop]; rfl)]
  rw [hfeed, hcall]
  refine ⟨rfl, m1 ++ g' :: m2, by simp, ?_⟩
  intro x
  have hcov : ∀ r : Nat, k.covers r ↔ r = q.toNat := by
    intro r
    unfold Call.covers
    rw [hkregs, spanOf_eq (lb := q) (ub := q) rfl rfl]
    simp only
    omega
  have hg0 : identRegs (g' :: m2) = identRegs m2 := by
    cases g' <;> first | rfl | (simp [GateObj.isHXZ] at hgx)
  have hnot : ∀ (m : List (GateObj R)), (∀ g ∈ m, ¬ InHull g.regs q.toNat) → q ∉ identRegs m := by
    intro m hm' hx'
    simp only [identRegs, List.mem_filterMap] at hx'
    obtain ⟨g0, hg0, hx'⟩ := hx'
    cases g0 with
    | ident r d =>
      simp only [Option.some.injEq] at hx'
      subst hx'
      apply hm' _ hg0
      rw [show GateObj.regs (GateObj.ident (R := R) r d) = [(r : Int)] from rfl, inHull_singleton]
      omega
    | _ => simp at hx'
  rw [identRegs_split, List.mem_append, hg0]
  have hold := hid x
  rw [hm, identRegs_split, List.mem_append,
    show identRegs (GateObj.ident q.toNat d :: m2) = (q.toNat : Int) :: identRegs m2 from rfl,
    List.mem_cons, hcast] at hold
  constructor
  · intro hx'
    have hxq : x ≠ q := by
      rintro rfl
      rcases hx' with h | h
      · exact hnot _ hm1 h
      · exact hnot _ hm2 h
    obtain ⟨L', hL', r, rfl, hr1, hr2⟩ := hold.1 (by rcases hx' with h | h <;> simp [h])
    cases hL'
    refine ⟨_, rfl, r, rfl, hr1, ?_⟩
    intro k' hk'
    rcases List.mem_append.1 hk' with h | h
    · exact hr2 k' h
    · rw [List.mem_singleton] at h
      subst h
      rw [hcov]
      omega
  · rintro ⟨L', hL', r, rfl, hr1, hr2⟩
    simp only [Option.map_some, Option.some.injEq] at hL'
    subst hL'
    have hrq : (r : Int) ≠ q := by
      intro h
      exact hr2 k (by simp) ((hcov r).2 (by omega))
    rcases hold.2 ⟨L, rfl, r, rfl, hr1, fun k' hk' => hr2 k' (by simp [hk'])⟩ with h | h | h
    · exact .inl h
    · exact absurd h hrq
    · exact .inr h

/-- The invariant while layers are handed over. -/
structure Handed (N : Numerics R) (dims : List Nat) (init : List Int) (out : Option Output)
    (ks : List (Call R)) (newest : Option (List (Call R))) (c : Circuit R) : Prop where
  inv : ∃ layers, Inv N dims (basis (startLevels dims init)) c (initOps dims init) ks layers
  valid : ∀ k ∈ ks, k.Valid dims
  newest : Newest dims c newest
  same : ∃ f, c = { freshCircuit (.list (dims.map Int.ofNat)) dims init out with flow := f }

theorem Handed.start (N : Numerics R) {dims : List Nat} (hpos : 0 < dims.length) (init : List Int)
    (out : Option Output) :
    Handed N dims init out [] none (freshCircuit (.list (dims.map Int.ofNat)) dims init out) := by
  refine ⟨⟨[], fresh_inv N out hpos⟩, by simp, ⟨initOps dims init, rfl, ?_⟩, ⟨_, rfl⟩⟩
  intro x
  rw [identRegs_init fun g hg => (initOps_isInit dims init g hg).1]
  simp

theorem Handed.feed [Nontrivial R] (hN : N.Sized) (h2 : ∀ d ∈ dims, 2 ≤ d) {init : List Int}
    {out : Option Output} {newest : Option (List (Call R))} (h : Handed N dims init out ks newest c)
    {group : List (List (Call R))} (hg : ∀ L ∈ group, (∀ k ∈ L, k.Valid dims) ∧ Ascending 0 L) :
    ∃ ms, group.mapM (layerFrom dims 0) = .ok ms ∧ (c.feed ms).2 = .ok true ∧
      Handed N dims init out (ks ++ (taken newest group).1) (taken newest group).2 (c.feed ms).1 := by
  induction group generalizing c ks newest with
  | nil => exact ⟨[], rfl, rfl, by simpa [taken, Circuit.feed, Flow.feed] using h⟩
  | cons L group ih =>
    obtain ⟨⟨layers, hI⟩, hval, hnew, f, hf⟩ := h
    have hpos := hI.unm.npos
    obtain ⟨hvL, hasc⟩ := hg L (by simp)
    obtain ⟨m, bs, hm, hL, hnone, hmeas, hident, hfind, hact⟩ :=
      layerFrom_ok hN h2 hpos hvL (Nat.zero_le _) hasc
    simp only [List.take_zero, idBlocks, List.map_nil, List.nil_append] at hact
    obtain ⟨last, hl, hlid⟩ := hnew
    -- the layer is appended
    have hadd : c.flow.feedOne m = ({ c.flow with moments := c.flow.moments ++ [m] }, .ok .added) →
        ∃ ms, (L :: group).mapM (layerFrom dims 0) = .ok ms ∧ (c.feed ms).2 = .ok true ∧
        Handed N dims init out (ks ++ (L ++ (taken (some L) group).1)) (taken (some L) group).2 (c.feed ms).1 := by
      intro hone
      have hI' := hI.added hN h2 hvL hval hL hnone hmeas hact
      have hF : Handed N dims init out (ks ++ L) (some L)
          { c with flow := { c.flow with moments := c.flow.moments ++ [m] } } := by
        refine ⟨⟨_, hI'⟩, ?_, ⟨m, by simp, ?_⟩, ⟨_, by rw [hf]⟩⟩
        · intro k hk
          rcases List.mem_append.1 hk with hk | hk
          · exact hval k hk
          · exact hvL k hk
        · intro x
          rw [hident]
          constructor
          · rintro ⟨r, rfl, _, h3, h4⟩
            exact ⟨L, rfl, r, rfl, h3, h4⟩
          · rintro ⟨L', hL', r, rfl, h3, h4⟩
            cases hL'
            exact ⟨r, rfl, Nat.zero_le _, h3, h4⟩
      obtain ⟨ms, hms, htrue, hFe⟩ := ih hF (fun L hL => hg L (by simp [hL]))
      have e : c.feed (m :: ms) =
          Circuit.feed { c with flow := { c.flow with moments := c.flow.moments ++ [m] } } ms := by
        simp only [Circuit.feed, Flow.feed, hone]
      refine ⟨m :: ms, ?_, by rw [e]; exact htrue, ?_⟩
      · simp [List.mapM_cons, hm, hms, bind, Except.bind, pure, Except.pure]
      · rw [e, ← List.append_assoc]
        exact hFe
    rcases hfind with ⟨hf1, hf2⟩ | ⟨g, k, hf1, hf2, hop⟩
    · simp only [taken, hf2]
      exact hadd (feedOne_plain hl hI.unm.notAll hf1 hmeas)
    · have hkx : k.isHXZ = true := by
        have := List.find?_some hf2
        simpa using this
      have hkL : k ∈ L := List.mem_of_find?_eq_some hf2
      by_cases hroom : Room newest k
      · simp only [taken, hf2, if_pos hroom]
        have hq : (∃ cs t p, k = .toffoli cs t p) → c.qregs.seq = dims := by
          rintro ⟨cs, t, p, rfl⟩
          simp [Call.isHXZ] at hkx
        obtain ⟨layers', hI', _, _⟩ := hI.call hN h2 (hvL k hkL).not_measureAll
          (by unfold Regular; rw [(hvL k hkL).applied h2]; simp) hq
        have hrest : ∃ ms, group.mapM (layerFrom (R := R) dims 0) = .ok ms := by
          clear ih hadd
          have hg' : ∀ L ∈ group, (∀ k ∈ L, k.Valid dims) ∧ Ascending 0 L := fun L hL => hg L (by simp [hL])
          clear hg
          induction group with
          | nil => exact ⟨[], rfl⟩
          | cons L' group ih' =>
            obtain ⟨m', _, hm', _⟩ := layerFrom_ok (N := N) hN h2 hpos (hg' L' (by simp)).1 (Nat.zero_le _)
              (hg' L' (by simp)).2
            obtain ⟨ms, hms⟩ := ih' fun L hL => hg' L (by simp [hL])
            exact ⟨m' :: ms, by simp [List.mapM_cons, hm', hms, bind, Except.bind, pure, Except.pure]⟩
        obtain ⟨ms, hms⟩ := hrest
        obtain ⟨hfeed, hnew'⟩ := hI.joined hN h2 (hvL k hkL) hkx hq ⟨last, hl, hlid⟩ hroom hop hf1 ms
        refine ⟨m :: ms, ?_, by rw [hfeed], ?_⟩
        · simp [List.mapM_cons, hm, hms, bind, Except.bind, pure, Except.pure]
        · rw [hfeed]
          refine ⟨⟨layers', hI'⟩, ?_, hnew', ?_⟩
          · intro k' hk'
            rcases List.mem_append.1 hk' with hk' | hk'
            · exact hval k' hk'
            · rw [List.mem_singleton] at hk'
              subst hk'
              exact hvL _ hkL
          · have : (c.call k).1 = (c.feed (m :: ms)).1 := by rw [hfeed]
            rw [this]
            exact ⟨_, by rw [Circuit.feed, hf]⟩
      · simp only [taken, hf2, if_neg hroom]
        apply hadd
        obtain ⟨q, hactg, hregs⟩ := hxz_regs (g := g) (by rw [op_hxz hop]; exact hkx)
        apply feedOne_new hl hI.unm.notAll hf1 hactg _ hmeas
        intro hq
        apply hroom
        obtain ⟨L', hL', r, rfl, h3, h4⟩ := (hlid q).1 hq
        refine ⟨L', hL', ?_⟩
        intro q' hq'
        rw [← op_regs hop, hregs, List.mem_singleton] at hq'
        subst hq'
        exact h4

theorem Handed.feeds [Nontrivial R] (hN : N.Sized) (h2 : ∀ d ∈ dims, 2 ≤ d) {init : List Int}
    {out : Option Output} {newest : Option (List (Call R))} (h : Handed N dims init out ks newest c)
    {groups : List (List (List (Call R)))}
    (hg : ∀ group ∈ groups, ∀ L ∈ group, (∀ k ∈ L, k.Valid dims) ∧ Ascending 0 L) :
    ∃ ms newest', groups.mapM (fun group => group.mapM (layerFrom dims 0)) = .ok ms ∧
      (c.feeds ms).2 = groups.map (fun _ => .ok true) ∧
      Handed N dims init out (ks ++ takenAll newest groups) newest' (c.feeds ms).1 := by
  induction groups generalizing c ks newest with
  | nil => exact ⟨[], newest, rfl, rfl, by simpa [takenAll, Circuit.feeds] using h⟩
  | cons group groups ih =>
    obtain ⟨m, hm, htrue, hF⟩ := h.feed hN h2 (hg group (by simp))
    obtain ⟨ms, newest', hms, htrues, hFs⟩ := ih hF fun g hg' => hg g (by simp [hg'])
    refine ⟨m :: ms, newest', ?_, ?_, ?_⟩
    · simp [List.mapM_cons, hm, hms, bind, Except.bind, pure, Except.pure]
    · simp only [Circuit.feeds, htrue, htrues, List.map_cons]
    · simp only [Circuit.feeds, takenAll, ← List.append_assoc]
      exact hFs

/-- Running a circuit after measuring it. -/
theorem Inv.run_measured (hN : N.Sized) (h2 : ∀ d ∈ dims, 2 ≤ d) {init : List Int}
    (hs : ValidStart (dims.map Int.ofNat) init)
    (hI : Inv N dims (basis (startLevels dims init)) c (initOps dims init) ks layers)
    (hb : ∀ k ∈ ks, fate dims k ≠ .broken) :
    ∃ w : Mat R, (c.calls [.measureAll]).flow.exec N (numpyBackend R) = .ok (some w) ∧
      IsVec dims w (finalState N dims (startLevels dims init) ks) ∧
      (c.calls [.measureAll]).output = c.output := by
  have hpos := hI.unm.npos
  obtain ⟨hfit, v, hv, hvec⟩ := initOps_prepares N hs hpos
  have hmeas := hI.unm.measure
  rw [Circuit.calls_cons, hmeas]
  obtain ⟨hgood, heq⟩ := hI.good hb
  have hall : List.Forall₂ (fun m F => ∃ A : Mat R, momentExec N (numpyBackend R) m = .ok A ∧ ActsAs dims A F)
      (layers.map Prod.fst).reverse (layers.map fun l => layerAct l.2).reverse := by
    rw [← List.map_reverse, ← List.map_reverse, List.forall₂_map_left_iff, List.forall₂_map_right_iff,
      List.forall₂_same]
    intro l hl
    rw [List.mem_reverse] at hl
    exact (hI.unm.lay l hl).exec hpos (hgood l hl)
  obtain ⟨w, hw, hw'⟩ := flowLoop_good_none hv hvec hall
  refine ⟨w, ?_, ⟨hw'.1, hw'.2.1, ?_⟩, rfl⟩
  · simp only [Circuit.calls, List.foldl_nil]
    unfold Flow.exec
    simp only
    rw [if_pos (by simp), if_neg (by simp), List.dropLast_concat, hI.unm.moments, List.reverse_cons, hw]
  · intro s hs'
    rw [hw'.2.2 s hs', List.foldr_reverse, List.foldl_map]
    exact heq s hs'

end

end QuDiet
