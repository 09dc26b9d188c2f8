import Verif.Lemmas.Exec

/-! # From histories of calls to the result of `run` -/

namespace QuDiet
open Spec

variable {R : Type} [CommRing R]

/-! ### Construction -/

theorem getD_extend (n : Nat) (init : List Int) (i : Nat) : (extendStates n init).getD i 0 = init.getD i 0 := by
  unfold extendStates
  simp only [List.getD_eq_getElem?_getD]
  by_cases h : i < init.length
  · rw [List.getElem?_append_left h]
  · rw [List.getElem?_append_right (by omega), List.getElem?_eq_none (l := init) (by omega)]
    by_cases h' : i - init.length < n - init.length
    · rw [List.getElem?_replicate, if_pos h']; rfl
    · rw [List.getElem?_replicate, if_neg h']

theorem length_extend {n : Nat} {init : List Int} (h : init.length ≤ n) : (extendStates n init).length = n := by
  simp [extendStates]; omega

/-- The preparation operators. -/
def initOps (dims : List Nat) (init : List Int) : List (GateObj R) :=
  (List.range dims.length).map fun i => .init (dims.getD i 0) (init.getD i 0) i

theorem validStart_getD {dims : List Nat} {init : List Int}
    (h : ValidStart (dims.map Int.ofNat) init) {i : Nat} (hi : i < dims.length) :
    2 ≤ dims.getD i 0 ∧ -(dims.getD i 0 : Int) ≤ init.getD i 0 ∧ init.getD i 0 < (dims.getD i 0 : Int) := by
  obtain ⟨h1, h2, h3⟩ := h
  have hd : dims.getD i 0 = dims[i] := by simp [List.getD_eq_getElem?_getD, hi]
  have hd2 : 2 ≤ dims[i] := by
    have := h1 (Int.ofNat dims[i]) (List.mem_map.2 ⟨_, List.getElem_mem hi, rfl⟩)
    simp at this
    omega
  rw [hd]
  refine ⟨hd2, ?_⟩
  by_cases hl : i < init.length
  · have := h3 i hl (by simpa using hi)
    simp only [List.getElem_map, Int.ofNat_eq_natCast] at this
    have e : init.getD i 0 = init[i] := by simp [List.getD_eq_getElem?_getD, hl]
    rw [e]
    omega
  · have e : init.getD i 0 = 0 := by simp [List.getD_eq_getElem?_getD, hl]
    rw [e]
    omega

theorem initMoment_ok {dims : List Nat} {init : List Int} (h : ValidStart (dims.map Int.ofNat) init) :
    initMoment (R := R) (dims.map Int.ofNat) (extendStates dims.length init) = .ok (initOps dims init) := by
  have hlen : (extendStates dims.length init).length = dims.length :=
    length_extend (by simpa using h.2.1)
  unfold initMoment
  rw [mapM_ok _ _ (fun si => .init (dims.getD si.2 0) si.1 si.2)]
  · congr 1
    unfold initOps
    apply List.ext_getElem
    · simp [hlen]
    · intro i h1 h2
      simp only [List.getElem_map, List.getElem_zipIdx, List.getElem_range, Nat.zero_add]
      have := getD_extend dims.length init i
      have hi : i < (extendStates dims.length init).length := by simpa using h1
      rw [List.getD_eq_getElem?_getD, List.getElem?_eq_getElem hi, Option.getD_some] at this
      rw [this]
  · intro si hsi
    obtain ⟨s, i⟩ := si
    have hi := List.mem_zipIdx hsi
    simp only [Nat.zero_add, Nat.sub_zero] at hi
    have hin : i < dims.length := by omega
    have hs : s = init.getD i 0 := by
      have := getD_extend dims.length init i
      rw [List.getD_eq_getElem?_getD, List.getElem?_eq_getElem (by omega), Option.getD_some] at this
      rw [← this]
      exact hi.2.2
    obtain ⟨g1, g2, g3⟩ := validStart_getD h hin
    have hd : dims.getD i 0 = dims[i] := by simp [List.getD_eq_getElem?_getD, hin]
    simp only [List.getElem?_map, List.getElem?_eq_getElem hin, Option.map_some]
    rw [hd] at g1 g2 g3 ⊢
    unfold initState
    rw [if_neg (by simp only [Int.ofNat_eq_natCast]; omega)]
    simp only [Int.ofNat_eq_natCast, Int.toNat_natCast]
    rw [pyIndex_ok (by omega) (by omega)]

section
variable [StarRing R] [DecidableEq R] [UnitaryCheck R]

theorem initOps_prepares (N : Numerics R) {dims : List Nat} {init : List Int}
    (h : ValidStart (dims.map Int.ofNat) init) (hpos : 0 < dims.length) :
    Fits dims (startLevels dims init) ∧
    ∃ v : Mat R, momentExec N (numpyBackend R) (initOps dims init) = .ok v ∧
      IsVec dims v (basis (startLevels dims init)) := by
  let ps := (List.range dims.length).map fun i => (dims.getD i 0, (init.getD i 0 % (dims.getD i 0 : Int)).toNat)
  have hf : List.Forall₂ (Prepares N) (initOps dims init) ps := by
    unfold initOps
    rw [List.forall₂_map_left_iff, List.forall₂_map_right_iff, List.forall₂_same]
    intro i hi
    rw [List.mem_range] at hi
    obtain ⟨g1, g2, g3⟩ := validStart_getD h hi
    refine ⟨emod_toNat_lt _ (by omega), ?_⟩
    simp only [GateObj.unitary, initVec, pyIndex_ok g2 g3]
    refine ⟨_, rfl, by simp [numpyBackend], rfl, ?_⟩
    intro s hs
    obtain ⟨k, rfl, hk⟩ := fits_singleton.1 hs
    simp [numpyBackend, basis, value_singleton]
  have e1 : ps.map Prod.fst = dims := by
    simp only [ps, List.map_map]
    apply List.ext_getElem
    · simp
    · intro i h1 h2
      simp [List.getD_eq_getElem?_getD, h2]
  have e2 : ps.map Prod.snd = startLevels dims init := by
    simp only [ps, List.map_map]
    rfl
  obtain ⟨v, hv, h1, h2⟩ := prep_exec hf (by
    intro he
    have : (initOps (R := R) dims init).length = 0 := by rw [he]; rfl
    simp [initOps] at this
    simp [this] at hpos)
  rw [e1, e2] at *
  exact ⟨h1, v, hv, h2⟩

end

/-- The circuit that the constructor builds. -/
def freshCircuit (q : RegsArg) (dims : List Nat) (init : List Int) (out : Option Output) : Circuit R where
  qregs := q.toRegs
  regLength := dims.length
  regDims := dims
  flow := { moments := [initOps dims init], measCount := List.replicate dims.length 0 }
  output := out.getD { base := q.toRegs.seq, type := .print, method := .amplitude }

theorem initOps_isInit (dims : List Nat) (init : List Int) :
    ∀ g ∈ initOps (R := R) dims init, g.isInit = true ∧ g.isMeas = false := by
  intro g hg
  obtain ⟨i, _, rfl⟩ := List.mem_map.1 hg
  exact ⟨rfl, rfl⟩

theorem new_ok {q : RegsArg} {dims : List Nat} (hq : q.dims = dims.map Int.ofNat) {init : List Int}
    (h : ValidStart (dims.map Int.ofNat) init) (out : Option Output) :
    Circuit.new (R := R) q init out = .ok (freshCircuit q dims init out) := by
  unfold Circuit.new
  have hl : (dims.map Int.ofNat).length = dims.length := by simp
  simp only [hq, hl, bind, Except.bind]
  rw [initMoment_ok h]
  simp only [Flow.populate, List.getLast?_nil]
  rw [detectMeas_none _ _ fun g hg => (initOps_isInit dims init g hg).2]
  have e : (dims.map Int.ofNat).map Int.toNat = dims := by simp [Function.comp_def]
  simp [freshCircuit, initOps, Function.comp_def]

/-! ### The invariant over histories -/

variable [StarRing R] [DecidableEq R] [UnitaryCheck R]

/-- The state after the layers. -/
def sem (layers : List (List (GateObj R) × List (Option (Block R)))) (ψ : State R) : State R :=
  layers.foldl (fun ψ l => layerAct l.2 ψ) ψ

/-- The state after the calls that take effect. -/
def applied (N : Numerics R) (dims : List Nat) (ks : List (Call R)) (ψ : State R) : State R :=
  (ks.filter fun k => fate dims k = .applied).foldl (fun ψ k => meaning N dims k ψ) ψ

structure Inv (N : Numerics R) (dims : List Nat) (ψ0 : State R) (c : Circuit R)
    (initM : List (GateObj R)) (ks : List (Call R))
    (layers : List (List (GateObj R) × List (Option (Block R)))) : Prop where
  unm : Unmeasured dims (Slot N dims) c initM layers
  bad : (∃ k ∈ ks, fate dims k = .broken) → ∃ l ∈ layers, none ∈ l.2
  good : (∀ k ∈ ks, fate dims k ≠ .broken) →
    (∀ l ∈ layers, none ∉ l.2) ∧ EqOn dims (sem layers ψ0) (applied N dims ks ψ0)

/-- Identity slot. -/
def idSlot (dims : List Nat) (r : Nat) : Option (Block R) := some ([dims.getD r 0], idEntry)

theorem idSlots_filterMap (dims : List Nat) (a k : Nat) (h : a + k ≤ dims.length) :
    ((List.range' a k).map (idSlot (R := R) dims)).filterMap id = idBlocks (slice dims a k) := by
  induction k generalizing a with
  | zero => simp [idBlocks]
  | succ k ih =>
    have ha : a < dims.length := by omega
    rw [List.range'_succ, List.map_cons]
    have e : slice dims a (k + 1) = dims[a] :: slice dims (a + 1) k := by
      unfold slice
      rw [List.drop_eq_getElem_cons ha, List.take_succ_cons]
    rw [e]
    have e2 : idSlot (R := R) dims a = some ([dims[a]], idEntry) := by
      unfold idSlot
      simp [List.getD_eq_getElem?_getD, ha]
    rw [e2]
    change _ :: ((List.range' (a + 1) k).map (idSlot (R := R) dims)).filterMap id = _
    rw [ih (a + 1) (by omega)]
    rfl

theorem none_not_idSlots (dims : List Nat) (l : List Nat) : none ∉ l.map (idSlot (R := R) dims) := by
  intro h
  obtain ⟨r, _, hr⟩ := List.mem_map.1 h
  cases hr

omit [StarRing R] [DecidableEq R] [UnitaryCheck R] in
theorem onBlock_congr {dims : List Nat} {lb len : Nat} (hle : lb + len ≤ dims.length)
    (U : Nat → Nat → R) {ψ φ : State R} (h : EqOn dims ψ φ) :
    EqOn dims (onBlock dims lb len U ψ) (onBlock dims lb len U φ) := by
  intro s hs
  unfold onBlock
  apply map_congr_sum
  intro m hm
  rw [mem_states] at hm
  congr 1
  apply h
  have hs' : Fits (dims.take lb ++ slice dims lb len ++ dims.drop (lb + len)) s := by
    rw [← dims_split]; exact hs
  obtain ⟨h12, h3⟩ := hs'.split
  obtain ⟨h1, h2⟩ := h12.split
  have l1 : (dims.take lb).length = lb := by simp; omega
  have l2 : (dims.take lb ++ slice dims lb len).length = lb + len := by
    rw [List.length_append, l1, slice_length hle]
  rw [l2] at h3
  rw [l1, l2, List.take_take, Nat.min_eq_left (by omega)] at h1
  rw [dims_split dims lb len]
  rw [fits_append (by rw [List.length_append, List.length_append, h1.1, hm.1])]
  refine ⟨?_, h3⟩
  rw [fits_append h1.1]
  exact ⟨h1, hm⟩

/-- Splitting a layer at one of its operators. -/
theorem Layer.split {N : Numerics R} {dims : List Nat} {off : Nat} {m1 m2 : List (GateObj R)}
    {g : GateObj R} {b1 b2 : List (Option (Block R))} {b : Option (Block R)}
    (hl : b1.length = m1.length)
    (h : Layer dims.length (Slot N dims) off (m1 ++ g :: m2) (b1 ++ b :: b2)) (hs : none ∉ b1) :
    ∃ off' k, off ≤ off' ∧ off' + k ≤ dims.length ∧ 0 < k ∧
      (∀ r : Nat, r < dims.length → ((off' ≤ r ∧ r < off' + k) ↔ InHull g.regs r)) ∧
      Slot N dims off' k g b ∧ blockDims (b1.filterMap id) = slice dims off (off' - off) ∧
      Layer dims.length (Slot N dims) (off' + k) m2 b2 := by
  induction m1 generalizing off b1 with
  | nil =>
    have : b1 = [] := by simpa using hl
    subst this
    cases h with
    | @cons _ k _ _ _ _ hk hle hinit hcov hP rest =>
      exact ⟨off, k, le_refl _, hle, hk, hcov, hP, by simp, rest⟩
  | cons g1 m1 ih =>
    cases b1 with
    | nil => simp at hl
    | cons b0 b1 =>
      cases h with
      | @cons _ k _ _ _ _ hk hle hinit hcov hP rest =>
        obtain ⟨off', k', h1, h2, h3, h4, h5, h6, h7⟩ := ih (by simpa using hl) rest (by simp at hs; exact hs.2)
        refine ⟨off', k', by omega, h2, h3, h4, h5, ?_, h7⟩
        cases b0 with
        | none => simp at hs
        | some b0 =>
          obtain ⟨hb, _, _⟩ := hP
          have e : (some b0 :: b1).filterMap id = b0 :: b1.filterMap id := rfl
          rw [e, blockDims_cons, h6, hb]
          unfold slice
          rw [← List.drop_drop]
          have : off' - off = k + (off' - (off + k)) := by omega
          rw [this, List.take_add]

section
variable {N : Numerics R} {dims : List Nat} {ψ0 : State R} {c : Circuit R}
  {initM : List (GateObj R)} {ks : List (Call R)}
  {layers : List (List (GateObj R) × List (Option (Block R)))}

theorem applied_snoc (k : Call R) (ψ : State R) :
    applied N dims (ks ++ [k]) ψ =
      if fate dims k = .applied then meaning N dims k (applied N dims ks ψ) else applied N dims ks ψ := by
  unfold applied
  rw [List.filter_append, List.foldl_append]
  by_cases h : fate dims k = .applied
  · rw [if_pos h]; simp [h]
  · rw [if_neg h]; simp [h]

theorem sem_snoc (l : List (GateObj R) × List (Option (Block R))) (ψ : State R) :
    sem (layers ++ [l]) ψ = layerAct l.2 (sem layers ψ) := by
  simp [sem]

/-- One accepted call keeps the invariant; the new layers do not depend on the state. -/
theorem Unmeasured.emit (hU : Unmeasured dims (Slot N dims) c initM layers) {k : Call R} {ra : RegArg}
    {lb ub : Int} {g : GateObj R} (hE : Emits N dims c k ra lb ub g)
    (hk : fate dims k = .skipped ∨ fate dims k = .applied ∨ fate dims k = .broken) :
    ∃ f layers', c.callM k = .ok ({ c with flow := f }, true) ∧
      ∀ ψ0 ks, Inv N dims ψ0 c initM ks layers → Inv N dims ψ0 { c with flow := f } initM (ks ++ [k]) layers' := by
  classical
  -- the block of the new operator, if it is good
  obtain ⟨bg, hbg, happ, hbrk⟩ : ∃ bg : Option (Block R),
      (lo dims lb < hi dims ub → Slot N dims (lo dims lb) (hi dims ub - lo dims lb) g bg) ∧
      (fate dims k = .applied → ∃ b, bg = some b ∧ lo dims lb < hi dims ub ∧
        GateOK N dims (lo dims lb) (hi dims ub - lo dims lb) g b ∧
        ∀ ψ, EqOn dims (onBlock dims (lo dims lb) (hi dims ub - lo dims lb) b.2 ψ) (meaning N dims k ψ)) ∧
      (fate dims k = .broken → bg = none ∧ lo dims lb < hi dims ub) := by
    rcases hk with hk | hk | hk
    · exact ⟨none, fun h => absurd h (hE.skipped hk), by simp [hk], by simp [hk]⟩
    · obtain ⟨h1, b, h2, h3⟩ := hE.applied hk
      exact ⟨some b, fun _ => h2, fun _ => ⟨b, rfl, h1, h2, h3⟩, by simp [hk]⟩
    · obtain ⟨h1, h2⟩ := hE.broken hk
      exact ⟨none, fun _ => h2, by simp [hk], fun _ => ⟨rfl, h1⟩⟩
  obtain ⟨f, layers', hadd, hunm, hcase⟩ := addMoment_spec hU (bI := idSlot dims)
    (fun r hr => slot_ident N dims r hr) hE.gateAt bg hbg
  refine ⟨f, layers', hE.call _ hadd, fun ψ0 ks hI => ⟨hunm, ?_, ?_⟩⟩
  · -- a broken call leaves a bad layer behind
    rintro ⟨k', hk', hf⟩
    have hold : (∃ l ∈ layers, none ∈ l.2) ∨ fate dims k = .broken := by
      rcases List.mem_append.1 hk' with h | h
      · exact .inl (hI.bad ⟨k', h, hf⟩)
      · rw [List.mem_singleton] at h
        subst h
        exact .inr hf
    rcases hcase with ⟨hin, rfl⟩ | ⟨hout, rfl⟩ | ⟨_, hin, _, ls, m1, d, m2, b1, bi, b2, rfl, rfl, hbi, _⟩
    · rcases hold with ⟨l, hl, hn⟩ | hb
      · exact ⟨l, by simp [hl], hn⟩
      · obtain ⟨rfl, _⟩ := hbrk hb
        exact ⟨_, List.mem_append_right _ (List.mem_singleton.2 rfl), by simp⟩
    · rcases hold with ⟨l, hl, hn⟩ | hb
      · exact ⟨l, by simp [hl], hn⟩
      · exact absurd (hbrk hb).2 hout
    · rcases hold with ⟨l, hl, hn⟩ | hb
      · rcases List.mem_append.1 hl with hl | hl
        · exact ⟨l, by simp [hl], hn⟩
        · rw [List.mem_singleton] at hl
          subst hl
          refine ⟨_, List.mem_append_right _ (List.mem_singleton.2 rfl), ?_⟩
          have hbi' : bi ≠ none := by
            rintro rfl
            exact absurd hbi.1 (by simp [GateObj.isIdent])
          rcases List.mem_append.1 hn with hn | hn
          · simp [hn]
          · rcases List.mem_cons.1 hn with hn | hn
            · exact absurd hn.symm hbi'
            · simp [hn]
      · obtain ⟨rfl, _⟩ := hbrk hb
        exact ⟨_, List.mem_append_right _ (List.mem_singleton.2 rfl), by simp⟩
  · -- otherwise the state follows
    intro hgood
    have hkb : fate dims k ≠ .broken := hgood k (by simp)
    obtain ⟨hg1, hg2⟩ := hI.good fun k' hk' => hgood k' (by simp [hk'])
    rw [applied_snoc]
    rcases hcase with ⟨hin, rfl⟩ | ⟨hout, rfl⟩ |
      ⟨hx, hin, hlu, ls, m1, d, m2, b1, bi, b2, hlay, rfl, hbi, hlen, _, _⟩
    · have hka : fate dims k = .applied := by
        rcases hk with hk | hk | hk
        · exact absurd hin (hE.skipped hk)
        · exact hk
        · exact absurd hk hkb
      obtain ⟨b, rfl, _, hok, hm⟩ := happ hka
      rw [if_pos hka]
      constructor
      · intro l hl
        rcases List.mem_append.1 hl with hl | hl
        · exact hg1 l hl
        · rw [List.mem_singleton] at hl
          subst hl
          simp only [List.mem_append, List.mem_cons, not_or]
          exact ⟨none_not_idSlots dims _, by simp, none_not_idSlots dims _⟩
      · rw [sem_snoc]
        have hle : lo dims lb + (hi dims ub - lo dims lb) ≤ dims.length := by simp only [lo, hi]; omega
        have e0 : ((List.range' 0 (lo dims lb)).map (idSlot (R := R) dims) ++ some b ::
            (List.range' (hi dims ub) (dims.length - hi dims ub)).map (idSlot dims)).filterMap id =
            idBlocks (dims.take (lo dims lb)) ++ (b.1, b.2) :: idBlocks (dims.drop (hi dims ub)) := by
          rw [List.filterMap_append, idSlots_filterMap _ _ _ (by simp only [lo]; omega)]
          change _ ++ b :: ((List.range' (hi dims ub) (dims.length - hi dims ub)).map
            (idSlot (R := R) dims)).filterMap id = _
          rw [idSlots_filterMap _ _ _ (by simp only [hi]; omega)]
          congr 3
          unfold slice
          rw [List.take_of_length_le (by simp)]
        simp only [layerAct, e0]
        rw [hok.1]
        have key := blockAct_single (dims.take (lo dims lb)) (slice dims (lo dims lb) (hi dims ub - lo dims lb))
          (dims.drop (hi dims ub)) b.2 (sem layers ψ0)
        have hsp : dims.take (lo dims lb) ++ slice dims (lo dims lb) (hi dims ub - lo dims lb) ++
            dims.drop (hi dims ub) = dims := by
          have := dims_split dims (lo dims lb) (hi dims ub - lo dims lb)
          rw [show lo dims lb + (hi dims ub - lo dims lb) = hi dims ub by omega] at this
          exact this.symm
        have hl1 : (dims.take (lo dims lb)).length = lo dims lb := by simp [lo]
        rw [hsp, hl1, slice_length hle] at key
        exact key.trans' ((onBlock_congr hle b.2 hg2).trans' (hm _))
    · have hka : fate dims k ≠ .applied := fun h => hout (by obtain ⟨_, _, h, _⟩ := happ h; exact h)
      rw [if_neg hka]
      constructor
      · intro l hl
        rcases List.mem_append.1 hl with hl | hl
        · exact hg1 l hl
        · rw [List.mem_singleton] at hl
          subst hl
          exact none_not_idSlots dims _
      · rw [sem_snoc]
        simp only [layerAct]
        rw [idSlots_filterMap _ _ _ (by omega)]
        have : slice dims 0 dims.length = dims := by unfold slice; simp
        rw [this]
        exact (blockAct_idBlocks dims _).trans' hg2
    · have hka : fate dims k = .applied := by
        rcases hk with hk | hk | hk
        · exact absurd hin (hE.skipped hk)
        · exact hk
        · exact absurd hk hkb
      obtain ⟨b, rfl, _, hok, hm⟩ := happ hka
      rw [if_pos hka]
      subst hlu
      have hq0 : 0 ≤ lb := by simp only [lo, hi] at hin; omega
      have hqn : lb.toNat < dims.length := by simp only [lo, hi] at hin; omega
      obtain ⟨e1, e2, _⟩ := lohi_one hq0 (show lb < dims.length by omega)
      rw [e2, e1] at hok hm
      have hgl := hg1 (m1 ++ .ident lb.toNat d :: m2, b1 ++ bi :: b2) (by rw [hlay]; simp)
      simp only [List.mem_append, List.mem_cons, not_or] at hgl
      obtain ⟨n1, n2, n3⟩ := hgl
      constructor
      · intro l hl
        rcases List.mem_append.1 hl with hl | hl
        · exact hg1 l (by rw [hlay]; simp [hl])
        · rw [List.mem_singleton] at hl
          subst hl
          simp only [List.mem_append, List.mem_cons, not_or]
          exact ⟨n1, by simp, n3⟩
      · rw [sem_snoc]
        rw [hlay, sem_snoc] at hg2
        have hl := hI.unm.lay (m1 ++ .ident lb.toNat d :: m2, b1 ++ bi :: b2) (by rw [hlay]; simp)
        obtain ⟨off', k', _, o2, o3, o4, o5, o6, o7⟩ := hl.split hlen n1
        -- the identity sits on register `lb`
        have hoff : off' = lb.toNat ∧ k' = 1 := by
          have h1 := o4 lb.toNat hqn
          have h3 := o4 off' (by omega)
          have h4 := o4 (off' + k' - 1) (by omega)
          simp only [GateObj.regs] at h1 h3 h4
          rw [inHull_singleton] at h1 h3 h4
          have h3' := h3.1 (by omega)
          have h4' := h4.1 (by omega)
          omega
        obtain ⟨rfl, rfl⟩ := hoff
        cases bi with
        | none => exact absurd rfl n2
        | some bi =>
          obtain ⟨p1, _, p3⟩ := hbi
          have p3 := p3 rfl
          have q1 := hok.1
          rw [slice_one hqn] at p1 q1
          have f1 : (b1 ++ some b :: b2).filterMap id = b1.filterMap id ++ ([dims[lb.toNat]], b.2) :: b2.filterMap id := by
            rw [List.filterMap_append, ← q1]
            rfl
          have f2 : (b1 ++ some bi :: b2).filterMap id = b1.filterMap id ++ ([dims[lb.toNat]], idEntry) :: b2.filterMap id := by
            rw [List.filterMap_append, ← p1, ← p3]
            rfl
          simp only [layerAct, f1]
          simp only [layerAct, f2] at hg2
          have key := blockAct_pack (b1.filterMap id) (b2.filterMap id) dims[lb.toNat] b.2 (sem ls ψ0)
          obtain ⟨_, r2⟩ := o7.good n3
          have hd0 : blockDims (b1.filterMap id) = dims.take lb.toNat := by
            rw [o6]; unfold slice; simp
          rw [hd0, r2] at key
          have hsp : dims.take lb.toNat ++ dims[lb.toNat] :: dims.drop (lb.toNat + 1) = dims := by
            rw [← List.drop_eq_getElem_cons hqn, List.take_append_drop]
          have hl1 : (dims.take lb.toNat).length = lb.toNat := by simp; omega
          rw [hsp, hl1] at key
          refine key.trans' ?_
          refine EqOn.trans' ?_ (hm _)
          have c1 := onBlock_one dims lb.toNat hqn b.2
            (blockAct (b1.filterMap id ++ ([dims[lb.toNat]], idEntry) :: b2.filterMap id) (sem ls ψ0))
          exact c1.symm'.trans' (onBlock_congr (by omega) b.2 hg2)

/-- One accepted call keeps the invariant. -/
theorem Inv.emit (hI : Inv N dims ψ0 c initM ks layers) {k : Call R} {ra : RegArg} {lb ub : Int}
    {g : GateObj R} (hE : Emits N dims c k ra lb ub g)
    (hk : fate dims k = .skipped ∨ fate dims k = .applied ∨ fate dims k = .broken) :
    ∃ f layers', c.callM k = .ok ({ c with flow := f }, true) ∧
      Inv N dims ψ0 { c with flow := f } initM (ks ++ [k]) layers' := by
  obtain ⟨f, layers', h1, h3⟩ := hI.unm.emit hE hk
  exact ⟨f, layers', h1, h3 _ _ hI⟩

/-- One call keeps the invariant, whatever its arguments. -/
theorem Inv.call [Nontrivial R] (hN : N.Sized) (h2 : ∀ d ∈ dims, 2 ≤ d)
    (hI : Inv N dims ψ0 c initM ks layers) {k : Call R}
    (hm : k.isMeasureAll = false) (hreg : Regular dims k)
    (hq : (∃ cs t p, k = .toffoli cs t p) → c.qregs.seq = dims) :
    ∃ layers', Inv N dims ψ0 (c.call k).1 initM (ks ++ [k]) layers' ∧
      (∃ f, (c.call k).1 = { c with flow := f }) ∧
      ((fate dims k = .rejected ∧ (∃ e, (c.call k).2 = .error e) ∧ (c.call k).1 = c) ∨
        (fate dims k ≠ .rejected ∧ (c.call k).2 = .ok true)) := by
  by_cases hr : fate dims k = .rejected
  · obtain ⟨e, he⟩ := rejected_raises hI.unm.regDims hI.unm.regLength hq hr
    have hc : c.call k = (c, .error e) := by simp [Circuit.call, he]
    rw [hc]
    refine ⟨layers, ⟨hI.unm, ?_, ?_⟩, ⟨c.flow, rfl⟩, .inl ⟨hr, ⟨e, rfl⟩, rfl⟩⟩
    · rintro ⟨k', hk', hf⟩
      rcases List.mem_append.1 hk' with h | h
      · exact hI.bad ⟨k', h, hf⟩
      · rw [List.mem_singleton] at h
        subst h
        rw [hr] at hf
        cases hf
    · intro hg
      rw [applied_snoc, if_neg (by rw [hr]; simp)]
      exact hI.good fun k' hk' => hg k' (by simp [hk'])
  · obtain ⟨ra, lb, ub, g, hE⟩ := emits_all hN h2 hI.unm.npos hI.unm.regDims hI.unm.regLength hq hm hr hreg
    have hk : fate dims k = .skipped ∨ fate dims k = .applied ∨ fate dims k = .broken := by
      unfold Regular at hreg
      cases hf : fate dims k <;> simp_all
    obtain ⟨f, layers', hc, hI'⟩ := hI.emit hE hk
    have hc' : c.call k = ({ c with flow := f }, .ok true) := by simp [Circuit.call, hc]
    rw [hc']
    exact ⟨layers', hI', ⟨f, rfl⟩, .inr ⟨hr, rfl⟩⟩

end

end QuDiet
