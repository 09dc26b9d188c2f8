import Verif.Lemmas.Any
import Mathlib.Algebra.Order.BigOperators.Group.List
import Mathlib.Data.Real.Basic

/-! # What the operators of a circuit come from

Each operator of a circuit is an identity or was built by one of the calls, at most one layer is added by a call,
and a product over the operators is at most the product over the calls. -/

namespace QuDiet
open Spec

variable {R : Type} [CommRing R]

/-- A product of real numbers, one for each operator. -/
def weight (w : GateObj R → ℝ) (ls : List (List (GateObj R))) : ℝ :=
  (ls.map fun m => (m.map w).prod).prod

theorem ids_ident {dims : List Nat} {a b : Nat} {g : GateObj R} (h : g ∈ ids dims a b) :
    ∃ q d, g = .ident q d := by
  unfold ids at h
  simp only [List.mem_map] at h
  obtain ⟨q, _, rfl⟩ := h
  exact ⟨_, _, rfl⟩

theorem ids_weight {w : GateObj R → ℝ} (hw : ∀ q d, w (.ident q d) = 1) (dims : List Nat) (a b : Nat) :
    ((ids (R := R) dims a b).map w).prod = 1 := by
  apply List.prod_eq_one
  intro x hx
  obtain ⟨g, hg, rfl⟩ := List.mem_map.1 hx
  obtain ⟨q, d, rfl⟩ := ids_ident hg
  exact hw q d

theorem layout_weight {w : GateObj R → ℝ} (hw : ∀ q d, w (.ident q d) = 1) (hw1 : ∀ g, 1 ≤ w g)
    (dims : List Nat) (lb ub : Int) (g : GateObj R) : ((layout dims lb ub g).map w).prod ≤ w g := by
  simp only [layout]
  split
  · simp [ids_weight hw]
  · rw [ids_weight hw]; exact hw1 g

theorem layout_all {P : GateObj R → Prop} (hi : ∀ q d, P (.ident q d)) {dims : List Nat} {lb ub : Int}
    {g : GateObj R} (hg : P g) : ∀ g' ∈ layout dims lb ub g, P g' := by
  have key : ∀ a b, ∀ g' ∈ ids (R := R) dims a b, P g' := by
    intro a b g' h
    obtain ⟨q, d, rfl⟩ := ids_ident h
    exact hi q d
  intro g' h
  simp only [layout] at h
  split at h
  · simp only [List.mem_append, List.mem_cons] at h
    rcases h with h | rfl | h
    · exact key _ _ _ h
    · exact hg
    · exact key _ _ _ h
  · exact key _ _ _ h

/-- What the layers of a circuit contain after some calls. -/
structure Made {ι : Type} (P : GateObj R → Prop) (w : ι → GateObj R → ℝ) (n : Nat) (W : ι → ℝ)
    (ls : List (List (GateObj R))) : Prop where
  objs : ∀ m ∈ ls, ∀ g ∈ m, P g
  count : ls.length ≤ n
  weight : ∀ i, weight (w i) ls ≤ W i

theorem list_prod_pos (l : List ℝ) (h : ∀ x ∈ l, 0 < x) : 0 < l.prod := by
  induction l with
  | nil => simp
  | cons a l ih =>
    rw [List.prod_cons]
    exact mul_pos (h a (by simp)) (ih fun x hx => h x (by simp [hx]))

theorem weight_pos {w : GateObj R → ℝ} (hw1 : ∀ g, 1 ≤ w g) (m : List (GateObj R)) : 0 < (m.map w).prod := by
  apply list_prod_pos
  intro x hx
  obtain ⟨g, _, rfl⟩ := List.mem_map.1 hx
  linarith [hw1 g]

theorem weights_pos {w : GateObj R → ℝ} (hw1 : ∀ g, 1 ≤ w g) (ls : List (List (GateObj R))) :
    0 < QuDiet.weight w ls := by
  apply list_prod_pos
  intro x hx
  obtain ⟨m, _, rfl⟩ := List.mem_map.1 hx
  exact weight_pos hw1 m

variable {ι : Type} {P : GateObj R → Prop} {w : ι → GateObj R → ℝ} {V : ι → Call R → ℝ}

theorem call_made (hi : ∀ q d, P (.ident q d)) (hw : ∀ i q d, w i (.ident q d) = 1) (hw1 : ∀ i g, 1 ≤ w i g)
    {dims : List Nat} {c : Circuit R} {initM : List (GateObj R)}
    {layers : List (List (GateObj R) × List Unit)} (h : Unmeasured dims Free c initM layers)
    {n : Nat} {W : ι → ℝ} (hM : Made P w n W (layers.map Prod.fst))
    {k : Call R} (hm : k.isMeasureAll = false)
    (hk : ∀ g : GateObj R, g.From c.regDims c.qregs.seq k → P g ∧ ∀ i, w i g ≤ V i k)
    (hV1 : ∀ i, 1 ≤ V i k) :
    ∃ f layers', (c.call k).1 = { c with flow := f } ∧ Unmeasured dims Free (c.call k).1 initM layers' ∧
      Made P w (n + 1) (fun i => W i * V i k) (layers'.map Prod.fst) := by
  have hW := fun i => (weights_pos (hw1 i) _).trans_le (hM.weight i)
  rcases call_any h hm with ⟨_, _, he⟩ | ⟨ra, lb, ub, g, f, layers', hA, hc, hu, hl⟩
  · refine ⟨c.flow, layers, he, by rwa [he], hM.objs, by have := hM.count; omega, ?_⟩
    exact fun i => (hM.weight i).trans (le_mul_of_one_le_right (hW i).le (hV1 i))
  · obtain ⟨hg, hgw⟩ := hk g hA.src
    refine ⟨f, layers', by rw [hc], by rw [hc]; exact hu, ?_⟩
    rcases hl with hl | ⟨_, _, _, ls, m1, d, m2, hl1, hl2⟩
    · rw [hl]
      refine ⟨?_, ?_, ?_⟩
      · intro m hm g' hg'
        rcases List.mem_append.1 hm with hm | hm
        · exact hM.objs m hm g' hg'
        · rw [List.mem_singleton] at hm
          subst hm
          exact layout_all hi hg g' hg'
      · rw [List.length_append]
        have := hM.count
        simp only [List.length_singleton]
        omega
      · intro i
        unfold QuDiet.weight
        rw [List.map_append, List.prod_append]
        simp only [List.map_cons, List.map_nil, List.prod_cons, List.prod_nil, mul_one]
        exact mul_le_mul (hM.weight i) ((layout_weight (hw i) (hw1 i) _ _ _ _).trans (hgw i)) (weight_pos (hw1 i) _).le (hW i).le
    · have hM2 := hM.weight
      have hM1 := hM.count
      have hM0 := hM.objs
      rw [hl1] at hM2 hM1 hM0
      rw [hl2]
      refine ⟨?_, ?_, ?_⟩
      · intro m hm g' hg'
        rcases List.mem_append.1 hm with hm | hm
        · exact hM0 m (List.mem_append_left _ hm) g' hg'
        · rw [List.mem_singleton] at hm
          subst hm
          simp only [List.mem_append, List.mem_cons] at hg'
          rcases hg' with hg' | rfl | hg'
          · exact hM0 _ (List.mem_append_right _ (List.mem_singleton.2 rfl)) g' (by simp [hg'])
          · exact hg
          · exact hM0 _ (List.mem_append_right _ (List.mem_singleton.2 rfl)) g' (by simp [hg'])
      · simp only [List.length_append, List.length_singleton] at hM1 ⊢
        omega
      · intro i
        have hM2 := hM2 i
        unfold QuDiet.weight at hM2 ⊢
        simp only [List.map_append, List.map_cons, List.map_nil, List.prod_append, List.prod_cons, List.prod_nil,
          mul_one, hw, one_mul] at hM2 ⊢
        have : (ls.map fun m => (m.map (w i)).prod).prod * ((m1.map (w i)).prod * (w i g * (m2.map (w i)).prod))
            = ((ls.map fun m => (m.map (w i)).prod).prod * ((m1.map (w i)).prod * (m2.map (w i)).prod)) * w i g := by
          ring
        rw [this]
        exact mul_le_mul hM2 (hgw i) (by linarith [hw1 i g]) (hW i).le

theorem calls_made (hi : ∀ q d, P (.ident q d)) (hw : ∀ i q d, w i (.ident q d) = 1) (hw1 : ∀ i g, 1 ≤ w i g)
    {dims seq : List Nat} {initM : List (GateObj R)} (ks : List (Call R))
    (hV1 : ∀ k ∈ ks, ∀ i, 1 ≤ V i k)
    (hm : ∀ k ∈ ks, k.isMeasureAll = false)
    (hk : ∀ k ∈ ks, ∀ g : GateObj R, g.From dims seq k → P g ∧ ∀ i, w i g ≤ V i k) {c : Circuit R}
    (hseq : c.qregs.seq = seq) {layers : List (List (GateObj R) × List Unit)}
    (h : Unmeasured dims Free c initM layers) {n : Nat} {W : ι → ℝ} (hM : Made P w n W (layers.map Prod.fst)) :
    ∃ layers', Unmeasured dims Free (c.calls ks) initM layers' ∧
      Made P w (n + ks.length) (fun i => W i * (ks.map (V i)).prod) (layers'.map Prod.fst) := by
  induction ks generalizing c layers n W with
  | nil => exact ⟨layers, h, by simpa using hM⟩
  | cons k ks ih =>
    obtain ⟨f, layers', h0, h1, h2⟩ := call_made hi hw hw1 h hM (hm k (by simp))
      (by rw [h.regDims, hseq]; exact hk k (by simp)) (hV1 k (by simp))
    rw [Circuit.calls_cons]
    obtain ⟨l, h3, h4⟩ := ih (fun k hk => hV1 k (by simp [hk])) (fun k hk => hm k (by simp [hk])) (fun k' hk' => hk k' (by simp [hk'])) (c := (c.call k).1)
      (by rw [h0]; exact hseq) h1 h2
    refine ⟨l, h3, ?_⟩
    have e1 : n + (k :: ks).length = n + 1 + ks.length := by simp; omega
    have e2 : (fun i => W i * ((k :: ks).map (V i)).prod) = fun i => W i * V i k * (ks.map (V i)).prod := by
      funext i
      simp [mul_assoc]
    rw [e1, e2]
    exact h4

theorem mem_of_live {ks : List (Call R)} {k : Call R} (h : k ∈ live ks) : k ∈ ks := by
  obtain ⟨rest, hks, _⟩ := live_append ks
  rw [hks]
  exact List.mem_append_left _ h

variable [StarRing R] [DecidableEq R] [UnitaryCheck R]

/-- What `opflow.exec()` multiplies after any calls: it raises whatever the numbers are, or multiplies layers of
operators that the calls built. -/
theorem exec_made (hi : ∀ q d, P (.ident q d)) (hw : ∀ i q d, w i (.ident q d) = 1) (hw1 : ∀ i g, 1 ≤ w i g)
    {q : RegsArg} {dims : List Nat} (hpos : 0 < dims.length) (init : List Int)
    (out : Option Output) (ks : List (Call R)) (hV1 : ∀ k ∈ live ks, ∀ i, 1 ≤ V i k)
    (hk : ∀ k ∈ live ks, ∀ g : GateObj R, g.From dims q.toRegs.seq k → P g ∧ ∀ i, w i g ≤ V i k) :
    (∀ (N : Numerics R) (B : Backend R),
      ((freshCircuit q dims init out).calls ks).flow.exec N B = .error .assertion) ∨
    ∃ layers : List (List (GateObj R)), (∀ l ∈ layers, ∃ b, Layer dims.length Free 0 l b) ∧
      Made P w (live ks).length (fun i => ((live ks).map (V i)).prod) layers ∧
      ∀ (N : Numerics R) (B : Backend R), ((freshCircuit q dims init out).calls ks).flow.exec N B =
        flowLoop N B (initOps dims init :: layers).reverse none := by
  obtain ⟨rest, hks, hrest⟩ := live_append ks
  obtain ⟨layers, hu, hM⟩ := calls_made hi hw hw1 (live ks) hV1 live_not_measure hk (c := freshCircuit q dims init out) rfl
    (fresh_any (q := q) hpos init out) (n := 0) (W := fun _ => 1) ⟨by simp, by simp, by simp [QuDiet.weight]⟩
  simp only [Nat.zero_add, one_mul] at hM
  rcases hrest with ⟨rfl, hno⟩ | ⟨r, rfl⟩
  · left
    intro N B
    rw [List.append_nil] at hks
    rw [hks]
    unfold Flow.exec
    rw [hu.notAll]
    rfl
  · right
    refine ⟨layers.map Prod.fst, ?_, hM, ?_⟩
    · intro l hl
      obtain ⟨x, hx, rfl⟩ := List.mem_map.1 hl
      exact ⟨_, hu.lay x hx⟩
    · intro N B
      rw [hks, Circuit.calls_append, Circuit.calls_cons, calls_measured (measureAll_any hu)]
      unfold Flow.exec
      rw [(measureAll_any hu).2]
      simp only [if_true]
      rw [hu.measure]
      simp only [hu.moments]
      rw [if_neg (by simp), List.dropLast_concat]

end QuDiet
