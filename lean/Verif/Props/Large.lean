import Verif.Lemmas.Large
import Verif.Props.Gates

/-! # Operators that are too large: C53 -/

namespace QuDiet
open Spec

variable {R : Type} [CommRing R] [StarRing R] [DecidableEq R] [UnitaryCheck R] [Nontrivial R]

/-- The call is not an `h`, `x` or `z` with a `dims` argument that differs from the dimension of the register. -/
def Call.OwnDims (dims : List Nat) : Call R → Prop
  | .h q k | .x q k _ | .z q k => k = none ∨ k = some 0 ∨ k = some (dimAt dims q)
  | _ => True

omit [StarRing R] [DecidableEq R] [UnitaryCheck R] [Nontrivial R] in
theorem Call.OwnDims.plain {dims : List Nat} {k : Call R} (h : k.OwnDims dims) : k.Plain dims := by
  have : ∀ (o : Option Nat) (d : Nat), (o = none ∨ o = some 0 ∨ o = some d) → (o.getD 0 = 0 ∨ o.getD 0 = d) := by
    rintro o d (rfl | rfl | rfl) <;> simp
  cases k <;> first | exact this _ _ h | trivial

omit [StarRing R] [DecidableEq R] [UnitaryCheck R] [Nontrivial R] in
theorem ids_width (dims : List Nat) (a b : Nat) (hb : b ≤ dims.length) (hab : a ≤ b) :
    ((ids (R := R) dims a b).map GateObj.width).prod = ((dims.take b).drop a).prod := by
  congr 1
  unfold ids
  rw [List.map_map]
  apply List.ext_getElem
  · simp; omega
  · intro i h1 h2
    simp only [List.length_map, List.length_range'] at h1
    have : a + i < dims.length := by omega
    simp [GateObj.width, List.getD_eq_getElem?_getD, this]

omit [StarRing R] [DecidableEq R] [UnitaryCheck R] [Nontrivial R] in
theorem layout_width (dims : List Nat) {lb ub : Int} {g : GateObj R} (h : lo dims lb < hi dims ub) :
    ((layout dims lb ub g).map GateObj.width).prod =
      (dims.take (lo dims lb)).prod * g.width * (dims.drop (hi dims ub)).prod := by
  simp only [layout]
  rw [if_pos (by simpa only [lo, hi] using h)]
  simp only [List.map_append, List.map_cons, List.prod_append, List.prod_cons]
  rw [ids_width dims 0 _ (by omega) (by omega), ids_width dims _ _ (by omega) (by omega)]
  simp only [List.drop_zero, List.take_length]
  rw [Nat.mul_assoc]

omit [StarRing R] [DecidableEq R] [UnitaryCheck R] [Nontrivial R] in
theorem layout_full (dims : List Nat) {lb ub : Int} {g : GateObj R} (hg : g.Full dims) :
    ∀ x ∈ layout dims lb ub g, x.Full dims := by
  have hid : ∀ a b, ∀ x ∈ ids (R := R) dims a b, x.Full dims := by
    intro a b x hx
    obtain ⟨r, _, rfl⟩ := List.mem_map.1 hx
    rfl
  intro x hx
  simp only [layout] at hx
  split at hx
  · simp only [List.mem_append, List.mem_cons] at hx
    rcases hx with hx | rfl | hx
    · exact hid _ _ x hx
    · exact hg
    · exact hid _ _ x hx
  · exact hid _ _ x hx

/-- If the check accepts unitary matrices only, no accepted matrix has more rows than columns. -/
theorem Call.wide_of_strict (hs : UnitaryCheck.Strict R) (k : Call R) : k.Wide := by
  cases k with
  | gate U q o => exact fun h => (hs U h).wide
  | _ => trivial

theorem large_script {N : Numerics R} (hN : N.Sized) {B : Backend R} (hB : B.Lawful)
    {dims : List Nat} (hne : dims ≠ []) {init : List Int} (h : ValidStart (dims.map Int.ofNat) init)
    (out : Option Output) {pre : List (Call R)} (hpre : .measureAll ∉ pre) {post : List (Call R)}
    (hpost : ∀ k ∈ live post, k.OwnDims dims) (hwide : ∀ k ∈ pre ++ post, k.Wide) {k : Call R} {q : RegArg} {lb ub : Int} {g : GateObj R}
    (hk : ∀ c : Circuit R, c.regDims = dims → c.regLength = dims.length → c.qregs.seq = dims →
      ∀ c', c.addMoment q g = .ok (c', true) → c.callM k = .ok (c', true))
    (hg : GateAt q lb ub g) (hlt : lo dims lb < hi dims ub) (hf : g.Full dims) (hgw : g.Wide) (hx : g.isHXZ = false)
    (hw : ((dims.take (hi dims ub)).drop (lo dims lb)).prod < g.width) :
    answer (.list (dims.map Int.ofNat)) init out pre k = .ok true ∧
    ∃ e, script N B (.list (dims.map Int.ofNat)) init out (pre ++ k :: post) = .error e := by
  have hpos := List.length_pos_of_ne_nil hne
  have h2 := ge_two_of_valid h
  rw [script_eq N hB rfl h, Circuit.calls_append, Circuit.calls_cons, answer_eq rfl h]
  have hno : ∀ k ∈ pre, k.isMeasureAll = false := by
    intro k hk
    cases k <;> first | rfl | exact absurd hk hpre
  obtain ⟨⟨layers, hu⟩, f0, hf0⟩ := calls_any pre hno
    (fresh_any (q := .list (dims.map Int.ofNat)) hpos init out)
  set c := (freshCircuit (R := R) (.list (dims.map Int.ofNat)) dims init out).calls pre with hc
  obtain ⟨f, layers', h1, h3, h4⟩ := addMoment_spec hu (bI := fun _ => ()) (fun _ _ => trivial) hg ()
    (fun _ => trivial)
  have hcall := hk c hu.regDims hu.regLength (by rw [hf0]; exact list_toRegs dims) _ h1
  have hc1 : c.call k = ({ c with flow := f }, .ok true) := by simp only [Circuit.call, hcall]
  rw [hc1]
  obtain ⟨layers'', hu', hlw⟩ := calls_wide pre hno (fun k hk => hwide k (by simp [hk]))
    (fresh_any (q := .list (dims.map Int.ofNat)) hpos init out) (by simp)
  have hll : layers''.map Prod.fst = layers.map Prod.fst := by
    have := hu'.moments.symm.trans hu.moments
    exact List.cons.inj this |>.2
  rw [hll] at hlw
  refine ⟨rfl, large_fails hN h h3 ?_ ?_ post (fun k hk => (hpost k hk).plain)
    (fun k hk => hwide k (by
      obtain ⟨rest, he, _⟩ := live_append post
      rw [he]
      simp [hk]))⟩
  · rcases h4 with ⟨_, h4⟩ | ⟨h5, _⟩ | ⟨h5, _⟩
    · rw [h4]
      intro m hm
      rw [List.map_append] at hm
      rcases List.mem_append.1 hm with hm | hm
      · exact hlw m hm
      · simp only [List.map_cons, List.map_nil, List.mem_singleton] at hm
        rw [hm]
        exact layout_wide dims hgw
    · exact absurd hlt h5
    · rw [hx] at h5; cases h5
  refine ⟨layout dims lb ub g, ?_, ?_, layout_full dims hf⟩
  · rcases h4 with ⟨_, h4⟩ | ⟨h5, _⟩ | ⟨h5, _⟩
    · rw [h4]; simp
    · exact absurd hlt h5
    · rw [hx] at h5; cases h5
  · rw [layout_width dims hlt]
    have e : dims.prod = (dims.take (lo dims lb)).prod * ((dims.take (hi dims ub)).drop (lo dims lb)).prod *
        (dims.drop (hi dims ub)).prod := by
      rw [← List.prod_append, ← List.prod_append]
      congr 1
      have : dims.take (lo dims lb) = (dims.take (hi dims ub)).take (lo dims lb) := by
        rw [List.take_take]; congr 1; omega
      rw [this, List.take_append_drop, List.take_append_drop]
    rw [e]
    apply Nat.mul_lt_mul_of_pos_right
    · apply Nat.mul_lt_mul_of_pos_left hw
      apply prod_pos_of
      intro d hd
      have := h2 d (List.mem_of_mem_take hd)
      omega
    · apply prod_pos_of
      intro d hd
      have := h2 d (List.mem_of_mem_drop hd)
      omega

/-- **C53.** A toffoli on registers some of which are given by negative numbers (within `-n … -1`) and
some by existing non-negative ones is accepted, and every later `run()` raises, provided that no later `h`,
`x` or `z` is given another dimension than that of its register. (`hwide`: no custom matrix passes the check that
has more rows than columns; see `Call.wide_of_strict`.) -/
theorem C53_mixed_toffoli_never_runs {N : Numerics R} (hN : N.Sized) {B : Backend R} (hB : B.Lawful)
    {dims : List Nat} (hne : dims ≠ []) {init : List Int} (h : ValidStart (dims.map Int.ofNat) init)
    (out : Option Output) {pre : List (Call R)} (hpre : .measureAll ∉ pre) {post : List (Call R)}
    (hpost : ∀ k ∈ live post, k.OwnDims dims) (hwide : ∀ k ∈ pre ++ post, k.Wide) {cs : List Int} {t : Int}
    (hin : ∀ q ∈ t :: cs, -(dims.length : Int) ≤ q ∧ q < dims.length)
    (hneg : ∃ q ∈ t :: cs, q < 0) (hnn : ∃ q ∈ t :: cs, 0 ≤ q) (p : Int) :
    answer (.list (dims.map Int.ofNat)) init out pre (.toffoli cs t p : Call R) = .ok true ∧
    ∃ e, script N B (.list (dims.map Int.ofNat)) init out (pre ++ .toffoli cs t p :: post) = .error e := by
  have mem : ∀ q, q ∈ cs ++ [t] ↔ q ∈ t :: cs := by intro q; simp [or_comm]
  obtain ⟨lb, ub, hmin, hmax, hlbm, hubm, hlo, hhi⟩ := exists_bounds (qs := cs ++ [t]) (by simp)
  have hle : lb ≤ ub := hlo ub hubm
  obtain ⟨b1, _⟩ := hin lb ((mem _).1 hlbm)
  obtain ⟨_, b2⟩ := hin ub ((mem _).1 hubm)
  have b3 : lb < 0 := by
    obtain ⟨q, hq, hq0⟩ := hneg
    have := hlo q ((mem _).2 hq); omega
  have b4 : 0 ≤ ub := by
    obtain ⟨q, hq, hq0⟩ := hnn
    have := hhi q ((mem _).2 hq); omega
  obtain ⟨M, hM, hmv⟩ := toffoliDm_ok (R := R) (dims := dims) (p := p) hmin hmax b1 b2 hlo hhi
  have hcols : M.cols = ((pyRange lb (ub + 1)).map (dimAt dims)).prod := hmv.2.1
  have h2 := ge_two_of_valid h
  apply large_script hN hB hne h out hpre hpost hwide (q := .list (pyRange lb (ub + 1))) (lb := lb) (ub := ub)
    (g := .toffoli cs t (pyRange lb (ub + 1)) ((pyRange lb (ub + 1)).map (dimAt dims)) M p)
  · intro c e1 e2 e3 c' hc'
    simp only [Circuit.callM, e3, hM, bind, Except.bind, hc']
  · exact ⟨⟨pyMin_pyRange hle, pyMax_pyRange hle⟩, hle, rfl, rfl, rfl, hlbm, hubm,
      fun x hx => ⟨hlo x hx, hhi x hx⟩⟩
  · simp only [lo, hi]; omega
  · trivial
  · exact (toffoliDm_square hM).le
  · rfl
  · change _ < M.cols
    have e0 : lo dims lb = 0 := by simp only [lo]; omega
    have e1 : hi dims ub = ub.toNat + 1 := by simp only [hi]; omega
    have esplit : pyRange lb (ub + 1) = pyRange lb 0 ++ pyRange 0 (ub + 1) := by
      apply List.ext_getElem
      · simp [pyRange]; omega
      · intro i h1 h3
        simp only [pyRange, List.length_map, List.length_range] at h1
        rw [List.getElem_append]
        split
        · simp [pyRange]
        · rename_i hi'
          simp only [pyRange, List.length_map, List.length_range] at hi'
          simp only [pyRange, List.getElem_map, List.getElem_range, List.length_map, List.length_range]
          omega
    have eblock : (pyRange 0 (ub + 1)).map (dimAt dims) = dims.take (ub.toNat + 1) := by
      apply List.ext_getElem
      · simp [pyRange]; omega
      · intro i h1 h3
        simp only [pyRange, List.length_map, List.length_range] at h1
        simp only [pyRange, List.getElem_map, List.getElem_range, List.getElem_take, Int.zero_add]
        rw [dimAt_nat (by omega) (by omega)]
        simp
    have hfirst : 2 ≤ ((pyRange lb 0).map (dimAt dims)).prod := by
      have hd : ∀ q ∈ pyRange lb 0, 2 ≤ dimAt dims q := by
        intro q hq
        simp only [pyRange, List.mem_map, List.mem_range] at hq
        obtain ⟨k, hk, rfl⟩ := hq
        unfold dimAt
        have : ((lb + k) % (dims.length : Int)).toNat < dims.length := emod_toNat_lt _ (by omega)
        rw [List.getD_eq_getElem?_getD, List.getElem?_eq_getElem this, Option.getD_some]
        exact h2 _ (List.getElem_mem this)
      have hne' : pyRange lb 0 ≠ [] := by
        intro e
        have := congrArg List.length e
        simp [pyRange] at this
        omega
      cases hl : pyRange lb 0 with
      | nil => exact absurd hl hne'
      | cons q l =>
        rw [hl] at hd
        rw [List.map_cons, List.prod_cons]
        have h3 := hd q (by simp)
        have h4 : 0 < (l.map (dimAt dims)).prod := by
          apply prod_pos_of
          intro d hd'
          obtain ⟨q', hq', rfl⟩ := List.mem_map.1 hd'
          have := hd q' (by simp [hq'])
          omega
        calc 2 ≤ dimAt dims q := h3
          _ ≤ dimAt dims q * (l.map (dimAt dims)).prod := Nat.le_mul_of_pos_right _ h4
    rw [hcols, esplit, List.map_append, List.prod_append, eblock, e0, e1, List.drop_zero]
    have hp : 0 < (dims.take (ub.toNat + 1)).prod := by
      apply prod_pos_of
      intro d hd
      have := h2 d (List.mem_of_mem_take hd)
      omega
    calc (dims.take (ub.toNat + 1)).prod < 2 * (dims.take (ub.toNat + 1)).prod := by omega
      _ ≤ _ := Nat.mul_le_mul_right _ hfirst

/-- **C53.** A custom gate on a list of registers whose matrix has more columns than the existing registers
from the lowest to the highest one have states is accepted, and every later `run()` raises, provided that no later `h`,
`x` or `z` is given another dimension than that of its register. (`hwide`: no custom matrix passes the check that
has more rows than columns; see `Call.wide_of_strict`.) -/
theorem C53_oversized_gate_never_runs {N : Numerics R} (hN : N.Sized) {B : Backend R} (hB : B.Lawful)
    {dims : List Nat} {init : List Int} (h : ValidStart (dims.map Int.ofNat) init)
    (out : Option Output) {pre : List (Call R)} (hpre : .measureAll ∉ pre) {post : List (Call R)}
    (hpost : ∀ k ∈ live post, k.OwnDims dims) (hwide : ∀ k ∈ pre ++ post, k.Wide) {qs : List Int} (hin : ∀ q ∈ qs, -(dims.length : Int) ≤ q)
    {a b : Nat} (hb : b < dims.length) (hbm : (b : Int) ∈ qs) (hbx : ∀ q ∈ qs, q ≤ b)
    (ha : ∀ q ∈ qs, a ≤ q.toNat) (ham : ∃ q ∈ qs, q.toNat = a) {U : Mat R}
    (hU : ((dims.take (b + 1)).drop a).prod < U.cols) (hUw : U.rows ≤ U.cols) :
    answer (.list (dims.map Int.ofNat)) init out pre (.gate U (.list qs) none) = .ok true ∧
    ∃ e, script N B (.list (dims.map Int.ofNat)) init out (pre ++ .gate U (.list qs) none :: post) = .error e := by
  have hne : dims ≠ [] := by rintro rfl; simp at hb
  obtain ⟨lb, ub, hmin, hmax, hlbm, hubm, hlo, hhi⟩ := exists_bounds (qs := qs) (by rintro rfl; simp at hbm)
  have hub : ub = b := le_antisymm (hbx ub hubm) (hhi _ hbm)
  have hlb : lb.toNat = a := by
    obtain ⟨q, hq, hqa⟩ := ham
    have := hlo q hq
    have := ha lb hlbm
    omega
  have hab : a ≤ b := by have := ha _ hbm; simpa using this
  have e1 : lo dims lb = a := by simp only [lo]; omega
  have e2 : hi dims ub = b + 1 := by simp only [hi]; omega
  have hget : qs.mapM (pyGet dims) = .ok (qs.map (dimAt dims)) :=
    mapM_ok _ _ _ fun q hq => pyGet_dimAt (hin q hq) (by have := hbx q hq; omega)
  apply large_script hN hB hne h out hpre hpost hwide (q := .list qs) (lb := lb) (ub := ub)
    (g := .arb (.list qs) (.list (qs.map (dimAt dims))) U)
  · intro c e1 e2 e3 c' hc'
    have hv : (qs.forM fun q => c.validate q none) = .ok () := by
      apply forM_validate_ok
      intro q hq
      unfold Circuit.validate
      rw [if_neg (by rw [e2]; have := hbx q hq; omega)]
    simp only [Circuit.callM, hv, e1, hget, bind, Except.bind, hc']
  · exact ⟨⟨hmin, hmax⟩, hlo ub hubm, rfl, rfl, rfl, hlbm, hubm, fun x hx => ⟨hlo x hx, hhi x hx⟩⟩
  · rw [e1, e2]; omega
  · trivial
  · exact fun _ => hUw
  · rfl
  · rw [e1, e2]; exact hU

/-- `toffoli([0, 1], -1)` on three qubits, with later gates. -/
example {B : Backend ℤ} (hB : B.Lawful) :
    ∃ e, script sampleN B (.list [2, 2, 2]) [1, 1] none
      ([.x 2 none 1] ++ .toffoli [0, 1] (-1) 1 :: [.h 0 none, .cx 0 2 1, .x 1 (some 2) 1, .measureAll]) = .error e :=
  (C53_mixed_toffoli_never_runs sampleN_sized hB (dims := [2, 2, 2]) (by simp) (validStart_of rfl) none (by simp)
    (by simp [live, Call.isMeasureAll, Call.OwnDims, dimAt]) (by simp [Call.Wide]) (by simp) ⟨-1, by simp⟩ ⟨0, by simp⟩ 1).2

/-- A matrix for four qubits, put on three of them. -/
example {B : Backend ℤ} (hB : B.Lawful) :
    ∃ e, script sampleN B (.list [2, 2, 2, 2]) [] none
      ([] ++ .gate (Mat.eye 16) (.list [0, 1, 2]) none :: [.measureAll]) = .error e :=
  (C53_oversized_gate_never_runs sampleN_sized hB (dims := [2, 2, 2, 2]) (validStart_of rfl) none (by simp)
    (by simp [live, Call.isMeasureAll]) (by simp [Call.Wide]) (by simp) (a := 0) (b := 2) (by simp) (by simp) (by simp) (by simp)
    ⟨0, by simp⟩ (by simp [Mat.eye]) (le_refl _)).2

/-- **C53**, the proviso is needed: a later gate of dimension 1 makes up for the toffoli that is too large, the
circuit runs, and the toffoli that names the controls 0 and 1 acts with the controls 1 and 2 on register 0. -/
theorem C53_small_gate_makes_up :
    script sampleN (numpyBackend ℤ) (.list [2, 2, 2]) [0, 1, 1] none
      [.toffoli [0, 1] (-1) 1, .z 2 (some 1), .measureAll] = .ok [(.str ['|', '1', '1', '1', '>'], 1)] := by
  decide +kernel

end QuDiet
