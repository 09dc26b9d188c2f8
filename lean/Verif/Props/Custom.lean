import Verif.Props.Reversible
import Verif.Lemmas.Norm

/-! # C88: laws of custom gates

`circuit.gate(matrix, registers)` multiplies the state by the matrix. Here is what follows from that for a user who
computes with matrices: which registers a gate acts on, two gates in a row, identity, inverse, Kronecker products,
a whole circuit written as one gate, and permutation matrices. -/

namespace QuDiet
open Spec

/-! ### Specification -/

/-- The register argument `q` reaches from register `a` to register `b`: it is the number `a = b`, or a list whose
lowest entry is `a` and whose highest is `b`. -/
def RegArg.Spans : RegArg → Nat → Nat → Prop
  | .int q, a, b => q = a ∧ a = b
  | .list qs, a, b => (a : Int) ∈ qs ∧ (b : Int) ∈ qs ∧ ∀ q ∈ qs, (a : Int) ≤ q ∧ q ≤ b

section
variable {R : Type} [CommRing R] [StarRing R] [DecidableEq R] [UnitaryCheck R]

/-- The calls `as` can be exchanged for `bs` in any circuit (made of valid calls, measured at its end, with any
initial levels and output format) without changing what `run()` returns. -/
def SameResults (N : Numerics R) (B : Backend R) (dims : List Nat) (as bs : List (Call R)) : Prop :=
  ∀ init out, ValidStart (dims.map Int.ofNat) init → ∀ pre post : List (Call R), (∀ k ∈ pre, k.Valid dims) →
    (∀ k ∈ post, k.Valid dims) →
    script N B (.list (dims.map Int.ofNat)) init out (pre ++ as ++ post ++ [.measureAll]) =
      script N B (.list (dims.map Int.ofNat)) init out (pre ++ bs ++ post ++ [.measureAll])

/-- Entry `(i, j)` of the product of `n × n` matrices. -/
def entry (n : Nat) (V U : Mat R) (i j : Nat) : R := ((List.range n).map fun k => V.e i k * U.e k j).sum

/-- The conjugate transpose. -/
def Mat.adjoint (U : Mat R) : Mat R := ⟨U.cols, U.rows, fun i j => star (U.e j i)⟩

/-! ### Blocks -/

theorem sameResults_of [Nontrivial R] {N : Numerics R} (hN : N.Sized) {B : Backend R} (hB : B.Lawful)
    {dims : List Nat} (hne : dims ≠ []) {as bs : List (Call R)}
    (ha : ∀ k ∈ as, k.Valid dims) (hb : ∀ k ∈ bs, k.Valid dims) (heq : SameEffect N dims as bs) :
    SameResults N B dims as bs :=
  fun _ _ h _ _ hpre hpost => script_replace hN hB hne h hpre ha hb hpost heq

theorem span_eq {dims : List Nat} {qs : List Int} (hv : ∀ q ∈ qs, InRange dims q) {a b : Nat}
    (hs : (RegArg.list qs).Spans a b) : spanOf qs = (a, b + 1 - a) ∧ a ≤ b ∧ b < dims.length := by
  obtain ⟨h1, h2, h3⟩ := hs
  have hne : qs ≠ [] := by rintro rfl; simp at h1
  obtain ⟨hl, hr⟩ := span_in hne hv
  have hab : a ≤ b := by have := (h3 _ h1).2; omega
  have hb := (hv _ h2).2
  have ea := (hr a).2 ⟨⟨a, h1, by omega⟩, ⟨b, h2, by omega⟩⟩
  have eb := (hr b).2 ⟨⟨a, h1, by omega⟩, ⟨b, h2, by omega⟩⟩
  obtain ⟨⟨x, hx, hx'⟩, -⟩ := (hr (spanOf qs).1).1 ⟨by omega, by omega⟩
  have := (h3 x hx).1
  obtain ⟨-, ⟨y, hy, hy'⟩⟩ := (hr ((spanOf qs).1 + (spanOf qs).2 - 1)).1 ⟨by omega, by omega⟩
  have := (h3 y hy).2
  refine ⟨Prod.ext ?_ ?_, hab, by omega⟩ <;> simp only <;> omega

/-- What a valid custom gate is: a matrix on consecutive registers. -/
theorem gate_block (N : Numerics R) {dims : List Nat} {U : Mat R} {q : RegArg} {k : Option Nat}
    (hv : (Call.gate U q k).Valid dims) {a b : Nat} (hs : q.Spans a b) :
    a ≤ b ∧ b < dims.length ∧ U.isUnitary = true ∧ U.rows = (slice dims a (b + 1 - a)).prod ∧
      U.cols = (slice dims a (b + 1 - a)).prod ∧
      ∀ ψ, EqOn dims (meaning N dims (.gate U q k) ψ) (onBlock dims a (b + 1 - a) U.e ψ) := by
  cases q with
  | int q =>
    obtain ⟨rfl, rfl⟩ := hs
    obtain ⟨h1, -, h2, h3, h4⟩ := hv
    have hq : a < dims.length := by have := h1.2; omega
    have e : (slice dims a (a + 1 - a)).prod = dims.getD a 0 := by
      rw [show a + 1 - a = 1 by omega, slice_one hq]
      simp [List.getD_eq_getElem?_getD, hq]
    rw [e]
    refine ⟨le_refl _, hq, h2, h3, h4, fun ψ => ?_⟩
    have := onReg_onBlock hq U.e ψ
    rw [show a + 1 - a = 1 by omega]
    exact this
  | list qs =>
    obtain ⟨-, h2, -, -, h5, h6, h7⟩ := hv
    obtain ⟨e, hab, hb⟩ := span_eq h2 hs
    rw [e] at h6 h7
    refine ⟨hab, hb, h5, h6, h7, fun ψ => ?_⟩
    simp only [meaning, e]
    exact EqOn.rfl'

/-- A custom gate is valid as soon as another one on the same registers is and its matrix has the size and passes
the check. -/
theorem gate_valid {dims : List Nat} {U V : Mat R} {q : RegArg} {k : Option Nat}
    (hv : (Call.gate U q k).Valid dims) (hV : V.isUnitary = true) (hr : V.rows = U.rows) (hc : V.cols = U.cols) :
    (Call.gate V q k).Valid dims := by
  cases q with
  | int q => exact ⟨hv.1, hv.2.1, hV, hr.trans hv.2.2.2.1, hc.trans hv.2.2.2.2⟩
  | list qs =>
    exact ⟨hv.1, hv.2.1, hv.2.2.1, hv.2.2.2.1, hV, hr.trans hv.2.2.2.2.2.1, hc.trans hv.2.2.2.2.2.2⟩

theorem valid_spans {dims : List Nat} {U : Mat R} {q : RegArg} {k : Option Nat}
    (hv : (Call.gate U q k).Valid dims) : ∃ a b, q.Spans a b := by
  cases q with
  | int q =>
    refine ⟨q.toNat, q.toNat, ?_, rfl⟩
    have := hv.1.1
    omega
  | list qs =>
    obtain ⟨h1, h2, -⟩ := hv
    cases qs with
    | nil => exact absurd rfl h1
    | cons q0 qs =>
      have l1 := foldl_min_le (q0 :: qs) q0
      have l2 := foldl_max_ge (q0 :: qs) q0
      have m1 : (q0 :: qs).foldl min q0 ∈ q0 :: qs := by
        rcases foldl_min_mem (q0 :: qs) q0 with e | e
        · rw [e]; simp
        · exact e
      have m2 : (q0 :: qs).foldl max q0 ∈ q0 :: qs := by
        rcases foldl_max_mem (q0 :: qs) q0 with e | e
        · rw [e]; simp
        · exact e
      have r1 := (h2 _ m1).1
      have r2 := (h2 _ m2).1
      refine ⟨((q0 :: qs).foldl min q0).toNat, ((q0 :: qs).foldl max q0).toNat, ?_, ?_, ?_⟩
      · rwa [Int.toNat_of_nonneg r1]
      · rwa [Int.toNat_of_nonneg r2]
      · intro q hq
        rw [Int.toNat_of_nonneg r1, Int.toNat_of_nonneg r2]
        exact ⟨l1.2 q hq, l2.2 q hq⟩

omit [CommRing R] [StarRing R] [DecidableEq R] [UnitaryCheck R] in
/-- Cut the dimensions and a state before and after a block of registers. -/
theorem cut {dims : List Nat} {lb len : Nat} (hle : lb + len ≤ dims.length) {P : List Nat → List Nat → Prop}
    (h : ∀ pre ds post p a q, pre.length = lb → ds.length = len → slice (pre ++ ds ++ post) lb len = ds →
      Fits pre p → Fits ds a → Fits post q → P (pre ++ ds ++ post) (p ++ a ++ q)) :
    ∀ s, Fits dims s → P dims s := by
  intro s hs
  have hsp := dims_split dims lb len
  have hl1 : (dims.take lb).length = lb := by simp; omega
  have hs' : Fits (dims.take lb ++ slice dims lb len ++ dims.drop (lb + len)) s := by rw [← hsp]; exact hs
  have s1 := hs'.split
  have s2 := s1.1.split
  have := h (dims.take lb) (slice dims lb len) (dims.drop (lb + len)) _ _ _ hl1 (slice_length hle) (by rw [← hsp])
    s2.1 s2.2 s1.2
  rwa [List.take_append_drop, List.take_append_drop, ← hsp] at this

omit [DecidableEq R] [UnitaryCheck R] in
theorem onBlock_mul {dims : List Nat} {lb len : Nat} (hle : lb + len ≤ dims.length) {U V W : Mat R}
    (hW : ∀ i < (slice dims lb len).prod, ∀ j < (slice dims lb len).prod,
      W.e i j = entry (slice dims lb len).prod V U i j) (ψ : State R) :
    EqOn dims (onBlock dims lb len V.e (onBlock dims lb len U.e ψ)) (onBlock dims lb len W.e ψ) := by
  refine fun s hs => cut hle (P := fun dims s => (∀ i < (slice dims lb len).prod, ∀ j < (slice dims lb len).prod,
      W.e i j = entry (slice dims lb len).prod V U i j) →
      onBlock dims lb len V.e (onBlock dims lb len U.e ψ) s = onBlock dims lb len W.e ψ s) ?_ s hs hW
  rintro pre ds post p a q rfl rfl hsl hp ha hq hW
  rw [hsl] at hW
  rw [onBlock_apply hp.1 ha.1, onBlock_apply hp.1 ha.1]
  have e1 : ∀ m ∈ states ds, V.e (value ds a) (value ds m) * onBlock (pre ++ ds ++ post) pre.length ds.length U.e ψ (p ++ m ++ q)
      = ((states ds).map fun m' => V.e (value ds a) (value ds m) * U.e (value ds m) (value ds m') * ψ (p ++ m' ++ q)).sum := by
    intro m hm
    rw [onBlock_apply hp.1 (mem_states.1 hm).1, ← List.sum_map_mul_left]
    apply map_congr_sum
    intro m' _
    rw [mul_assoc]
  rw [map_congr_sum e1, sum_comm]
  apply map_congr_sum
  intro m' hm'
  rw [hW _ (value_lt ha) _ (value_lt (mem_states.1 hm')), entry, sum_range_prod, List.sum_map_mul_right]

omit [DecidableEq R] [UnitaryCheck R] in
theorem onBlock_eye {dims : List Nat} {lb len : Nat} (hle : lb + len ≤ dims.length) {U : Mat R}
    (hU : ∀ i < (slice dims lb len).prod, ∀ j < (slice dims lb len).prod, U.e i j = if i = j then 1 else 0)
    (ψ : State R) : EqOn dims (onBlock dims lb len U.e ψ) ψ := by
  refine fun s hs => cut hle (P := fun dims s => (∀ i < (slice dims lb len).prod, ∀ j < (slice dims lb len).prod,
      U.e i j = if i = j then 1 else 0) → onBlock dims lb len U.e ψ s = ψ s) ?_ s hs hU
  rintro pre ds post p a q rfl rfl hsl hp ha hq hU
  rw [hsl] at hU
  rw [onBlock_apply hp.1 ha.1]
  have e1 : ∀ m ∈ states ds, U.e (value ds a) (value ds m) * ψ (p ++ m ++ q) = if a = m then ψ (p ++ m ++ q) else 0 := by
    intro m hm
    rw [hU _ (value_lt ha) _ (value_lt (mem_states.1 hm))]
    by_cases e : a = m
    · subst e; simp
    · rw [if_neg e, if_neg (fun h => e (value_inj ha (mem_states.1 hm) h)), zero_mul]
  rw [map_congr_sum e1]
  exact sum_ite_eq _ (nodup_states ds) a (mem_states.2 ha) fun m => ψ (p ++ m ++ q)

omit [DecidableEq R] [UnitaryCheck R] in
theorem onBlock_kron {pre d1 d2 post : List Nat} {U V : Mat R} (hr : V.rows = d2.prod) (hc : V.cols = d2.prod)
    (ψ : State R) :
    EqOn (pre ++ d1 ++ d2 ++ post)
      (onBlock (pre ++ d1 ++ d2 ++ post) (pre.length + d1.length) d2.length V.e
        (onBlock (pre ++ d1 ++ d2 ++ post) pre.length d1.length U.e ψ))
      (onBlock (pre ++ d1 ++ d2 ++ post) pre.length (d1.length + d2.length) (U.kron V).e ψ) := by
  intro s hs
  obtain ⟨h3, hq⟩ := hs.split
  obtain ⟨h2, hy⟩ := h3.split
  obtain ⟨hp, hx⟩ := h2.split
  rw [← List.take_append_drop (pre ++ d1 ++ d2).length s]
  generalize s.take (pre ++ d1 ++ d2).length = t at *
  generalize s.drop (pre ++ d1 ++ d2).length = q at *
  rw [← List.take_append_drop (pre ++ d1).length t]
  generalize t.drop (pre ++ d1).length = y at *
  generalize t.take (pre ++ d1).length = t at *
  rw [← List.take_append_drop pre.length t]
  generalize t.drop pre.length = x at *
  generalize t.take pre.length = p at *
  have e1 := onBlock_apply (pre := pre ++ d1) (ds := d2) (post := post) (U := V.e)
    (ψ := onBlock (pre ++ d1 ++ d2 ++ post) pre.length d1.length U.e ψ) (p := p ++ x) (a := y) (q := q)
    (by simp [hp.1, hx.1]) hy.1
  rw [List.length_append] at e1
  rw [e1]
  have e2 := onBlock_apply (pre := pre) (ds := d1 ++ d2) (post := post) (U := (U.kron V).e) (ψ := ψ) (p := p)
    (a := x ++ y) (q := q) hp.1 (by simp [hx.1, hy.1])
  rw [List.length_append] at e2
  rw [show pre ++ d1 ++ d2 ++ post = pre ++ (d1 ++ d2) ++ post by simp, show p ++ x ++ y ++ q = p ++ (x ++ y) ++ q by simp,
    e2, sum_states_append, sum_comm]
  apply map_congr_sum
  intro n hn
  have hn' := mem_states.1 hn
  have e3 := onBlock_apply (pre := pre) (ds := d1) (post := d2 ++ post) (U := U.e) (ψ := ψ) (p := p) (a := x)
    (q := n ++ q) hp.1 hx.1
  rw [show pre ++ (d1 ++ d2) ++ post = pre ++ d1 ++ (d2 ++ post) by simp, show p ++ x ++ n ++ q = p ++ x ++ (n ++ q) by simp,
    e3, ← List.sum_map_mul_left]
  apply map_congr_sum
  intro m hm
  have hm' := mem_states.1 hm
  simp only [Mat.kron, hr, hc]
  rw [value_append_div hx.1 hy, value_append_mod hx.1 hy, value_append_div hm'.1 hn', value_append_mod hm'.1 hn']
  rw [show p ++ (m ++ n) ++ q = p ++ m ++ (n ++ q) by simp]
  ring

/-! ### The identity and the inverse -/

theorem eye_passes [Nontrivial R] (n : Nat) : (Mat.eye n : Mat R).isUnitary = true := by
  apply UnitaryCheck.yes
  · intro i _ j _
    simp only [Mat.eye]
    split <;> simp
  · intro i hi j hj
    simp only [Mat.eye, Mat.gram] at *
    have : ∀ k ∈ List.range n, (if i = k then (1 : R) else 0) * star (if j = k then (1 : R) else 0)
        = if i = k then (if i = j then 1 else 0) else 0 := by
      intro k _
      by_cases e : i = k
      · subst e; by_cases e' : j = i
        · subst e'; simp
        · have : i ≠ j := fun h => e' h.symm
          simp [e', this]
      · simp [e]
    rw [map_congr_sum this]
    exact sum_ite_eq _ List.nodup_range i (List.mem_range.2 hi) fun _ => if i = j then (1 : R) else 0

variable {N : Numerics R} {B : Backend R} {dims : List Nat}

theorem ne_nil_of_valid {U : Mat R} {q : RegArg} {k : Option Nat} (hv : (Call.gate U q k).Valid dims) : dims ≠ [] := by
  obtain ⟨a, b, hs⟩ := valid_spans hv
  have := (gate_block ⟨fun _ => [], fun _ => 0⟩ hv hs).2.1
  rintro rfl
  simp at this

/-! ### The laws -/

/-- **C88.** Only the lowest and the highest register of a custom gate count: two register arguments that reach from
the same register to the same register are interchangeable, whatever their order, whatever is repeated or left out
in between. (The dimension argument may differ as well.) -/
theorem C88_extent [Nontrivial R] (hN : N.Sized) (hB : B.Lawful) {U : Mat R} {q q' : RegArg} {k k' : Option Nat}
    (h : (Call.gate U q k).Valid dims) (h' : (Call.gate U q' k').Valid dims) {a b : Nat} (hq : q.Spans a b)
    (hq' : q'.Spans a b) : SameResults N B dims [.gate U q k] [.gate U q' k'] := by
  refine sameResults_of hN hB (ne_nil_of_valid h) (by simpa using h) (by simpa using h') fun ψ => ?_
  exact ((gate_block N h hq).2.2.2.2.2 ψ).trans' ((gate_block N h' hq').2.2.2.2.2 ψ).symm'

/-- **C88.** Two custom gates in a row on the same registers are one custom gate, whose matrix is the product, the
later gate's matrix on the left (if the check accepts the product). -/
theorem C88_product [Nontrivial R] (hN : N.Sized) (hB : B.Lawful) {U V W : Mat R} {q q' q'' : RegArg}
    {k k' k'' : Option Nat} (hU : (Call.gate U q k).Valid dims) (hV : (Call.gate V q' k').Valid dims)
    (hW : (Call.gate W q'' k'').Valid dims) {a b : Nat} (hq : q.Spans a b) (hq' : q'.Spans a b) (hq'' : q''.Spans a b)
    (he : ∀ i < W.rows, ∀ j < W.cols, W.e i j = entry W.rows V U i j) :
    SameResults N B dims [.gate U q k, .gate V q' k'] [.gate W q'' k''] := by
  refine sameResults_of hN hB (ne_nil_of_valid hU) (by simpa using ⟨hU, hV⟩) (by simpa using hW) fun ψ => ?_
  obtain ⟨hab, hb, -, -, -, eU⟩ := gate_block N hU hq
  obtain ⟨-, -, -, -, -, eV⟩ := gate_block N hV hq'
  obtain ⟨-, -, -, hr, hc, eW⟩ := gate_block N hW hq''
  have hle : a + (b + 1 - a) ≤ dims.length := by omega
  rw [hr, hc] at he
  exact ((eV _).trans' (onBlock_congr hle V.e (eU ψ))).trans' ((onBlock_mul hle he ψ).trans' (eW ψ).symm')

/-- **C88.** A custom gate with the identity matrix passes the check and does nothing. -/
theorem C88_identity [Nontrivial R] (hN : N.Sized) (hB : B.Lawful) {U : Mat R} {q : RegArg} {k : Option Nat}
    (hU : (Call.gate U q k).Valid dims) :
    (Call.gate (Mat.eye U.rows : Mat R) q k).Valid dims ∧
      SameResults N B dims [.gate (Mat.eye U.rows) q k] [] := by
  obtain ⟨a, b, hs⟩ := valid_spans hU
  obtain ⟨hab, hb, -, hr, hc, -⟩ := gate_block N hU hs
  have hv := gate_valid hU (eye_passes U.rows) rfl (hr.trans hc.symm)
  refine ⟨hv, sameResults_of hN hB (ne_nil_of_valid hU) (by simpa using hv) (by simp) fun ψ => ?_⟩
  obtain ⟨-, -, -, -, -, e⟩ := gate_block N hv hs
  exact (e ψ).trans' (onBlock_eye (by omega) (fun i _ j _ => rfl) ψ)

/-- **C88.** If `U U* = 1`, a custom gate `U` followed by a custom gate with the conjugate transpose of `U` does
nothing, and so does the conjugate transpose followed by `U` (if the check accepts the conjugate transpose). -/
theorem C88_undo [Nontrivial R] (hN : N.Sized) (hB : B.Lawful) {U : Mat R} {q : RegArg} {k : Option Nat}
    (hU : (Call.gate U q k).Valid dims) (hu : U.Unitary) (hacc : U.adjoint.isUnitary = true) :
    SameResults N B dims [.gate U q k, .gate U.adjoint q k] [] ∧
      SameResults N B dims [.gate U.adjoint q k, .gate U q k] [] := by
  obtain ⟨a, b, hs⟩ := valid_spans hU
  obtain ⟨hab, hb, -, hr, hc, eU⟩ := gate_block N hU hs
  have hsq : U.rows = U.cols := hr.trans hc.symm
  have hA := gate_valid hU (V := U.adjoint) hacc hsq.symm hsq
  obtain ⟨-, -, -, -, -, eA⟩ := gate_block N hA hs
  have hle : a + (b + 1 - a) ≤ dims.length := by omega
  have hcol := columns_of_unitary hu hr hc
  constructor
  · refine sameResults_of hN hB (ne_nil_of_valid hU) (by simpa using ⟨hU, hA⟩) (by simp) fun ψ => ?_
    refine ((eA _).trans' (onBlock_congr hle _ (eU ψ))).trans'
      ((onBlock_mul hle (W := Mat.eye (slice dims a (b + 1 - a)).prod) ?_ ψ).trans'
        (onBlock_eye hle (fun i _ j _ => rfl) ψ))
    intro i hi j hj
    have := hcol j hj i hi
    simp only [Mat.eye, entry, Mat.adjoint]
    rw [map_congr_sum (g := fun k => U.e k j * star (U.e k i)) fun k _ => mul_comm _ _, this]
    simp [eq_comm]
  · refine sameResults_of hN hB (ne_nil_of_valid hU) (by simpa using ⟨hA, hU⟩) (by simp) fun ψ => ?_
    refine ((eU _).trans' (onBlock_congr hle _ (eA ψ))).trans'
      ((onBlock_mul hle (W := Mat.eye (slice dims a (b + 1 - a)).prod) ?_ ψ).trans'
        (onBlock_eye hle (fun i _ j _ => rfl) ψ))
    intro i hi j hj
    have := hu i (by rw [hr]; exact hi) j (by rw [hr]; exact hj)
    rw [Mat.gram, hc] at this
    simp only [Mat.eye, entry, Mat.adjoint]
    exact this.symm

/-- **C88.** Custom gates on neighbouring groups of registers, one from `a` to `b` and one from `b+1` to `c`, are one
custom gate on the registers from `a` to `c` whose matrix is the Kronecker product, the lower registers' matrix on the
left. -/
theorem C88_kron [Nontrivial R] (hN : N.Sized) (hB : B.Lawful) {U V : Mat R} {q q' q'' : RegArg} {k k' k'' : Option Nat}
    (hU : (Call.gate U q k).Valid dims) (hV : (Call.gate V q' k').Valid dims)
    (hW : (Call.gate (U.kron V) q'' k'').Valid dims) {a b c : Nat} (hq : q.Spans a b) (hq' : q'.Spans (b + 1) c)
    (hq'' : q''.Spans a c) :
    SameResults N B dims [.gate U q k, .gate V q' k'] [.gate (U.kron V) q'' k''] := by
  refine sameResults_of hN hB (ne_nil_of_valid hU) (by simpa using ⟨hU, hV⟩) (by simpa using hW) fun ψ => ?_
  obtain ⟨hab, hb, -, -, -, eU⟩ := gate_block N hU hq
  obtain ⟨hbc, hc, -, hr, hcc, eV⟩ := gate_block N hV hq'
  obtain ⟨-, -, -, -, -, eW⟩ := gate_block N hW hq''
  have hle : b + 1 + (c + 1 - (b + 1)) ≤ dims.length := by omega
  refine ((eV _).trans' (onBlock_congr hle V.e (eU ψ))).trans' (EqOn.trans' ?_ (eW ψ).symm')
  have e1 : dims = dims.take a ++ slice dims a (b + 1 - a) ++ slice dims (b + 1) (c + 1 - (b + 1)) ++ dims.drop (c + 1) := by
    have h1 := dims_split dims a (b + 1 - a)
    have h2 := dims_split dims (b + 1) (c + 1 - (b + 1))
    have h3 : dims.take (b + 1) = dims.take a ++ slice dims a (b + 1 - a) := by
      conv_lhs => rw [h1]
      rw [List.take_left' (by rw [List.length_append, slice_length (by omega), List.length_take]; omega)]
    rw [← h3]
    rw [show b + 1 + (c + 1 - (b + 1)) = c + 1 by omega] at h2
    exact h2
  have l1 : (dims.take a).length = a := by simp; omega
  have l2 : (slice dims a (b + 1 - a)).length = b + 1 - a := slice_length (by omega)
  have l3 : (slice dims (b + 1) (c + 1 - (b + 1))).length = c + 1 - (b + 1) := slice_length (by omega)
  have := onBlock_kron (pre := dims.take a) (d1 := slice dims a (b + 1 - a)) (d2 := slice dims (b + 1) (c + 1 - (b + 1)))
    (post := dims.drop (c + 1)) (U := U) (V := V) hr hcc ψ
  rw [← e1, l1, l2, l3] at this
  rwa [show a + (b + 1 - a) = b + 1 by omega, show b + 1 - a + (c + 1 - (b + 1)) = c + 1 - a by omega] at this

theorem onBlock_all {n : Nat} (hn : n = dims.length) (U : Nat → Nat → R) (ψ : State R) :
    EqOn dims (onBlock dims 0 n U ψ) fun s => ((states dims).map fun t => U (value dims s) (value dims t) * ψ t).sum := by
  intro s hs
  subst hn
  have := onBlock_apply (pre := []) (ds := dims) (post := []) (U := U) (ψ := ψ) (p := []) (a := s) (q := []) rfl hs.1
  simpa using this

/-- **C88.** Any calls can be written as one custom gate on all the registers: its matrix has in column `t` and row
`s` (levels read as numbers, register 0 most significant) the amplitude of `s` that the calls give when started in the
levels `t` (if the check accepts this matrix). -/
theorem C88_circuit_as_gate [Nontrivial R] (hN : N.Sized) (hB : B.Lawful) (h2 : ∀ d ∈ dims, 2 ≤ d)
    {ks : List (Call R)} (hks : ∀ k ∈ ks, k.Valid dims) {U : Mat R} {q : RegArg} {k : Option Nat}
    (hU : (Call.gate U q k).Valid dims) (hq : q.Spans 0 (dims.length - 1))
    (he : ∀ s t, Fits dims s → Fits dims t →
      U.e (value dims s) (value dims t) = amplitude N B dims (asInit t) ks s) :
    SameResults N B dims ks [.gate U q k] := by
  have hne := ne_nil_of_valid hU
  refine sameResults_of hN hB hne hks (by simpa using hU) fun ψ s hs => ?_
  obtain ⟨-, hb, -, -, -, eU⟩ := gate_block N hU hq
  refine Eq.trans ?_ ((eU ψ s hs).trans (onBlock_all (by omega) _ ψ s hs)).symm
  refine (applyAll_expand N hks ψ hs).trans ?_
  apply map_congr_sum
  intro t ht
  have ht' := mem_states.1 ht
  rw [he s t hs ht', amplitude_eq hN hB hne (validStart_asInit h2 ht') hks hs, stateAfter_eq, startLevels_asInit ht', mul_comm]

/-- **C88.** Every one-to-one function of the levels is one custom gate: for any permutation `σ` of the lists of
levels there is a matrix of zeros and ones such that the gate on all registers (named in any list from the first
to the last, of any length but two) sends levels `s` to `σ s`. So custom gates do what `x`, `cx` and `toffoli` cannot
(`C85_odd_dimensions`). -/
theorem C88_every_permutation [Nontrivial R] (hN : N.Sized) (hB : B.Lawful) (hne : dims ≠ []) (h2 : ∀ d ∈ dims, 2 ≤ d)
    (σ : Equiv.Perm (Levels dims)) {qs : List Int} (hq : (RegArg.list qs).Spans 0 (dims.length - 1))
    (hlen : qs.length ≠ 2) :
    ∃ U : Mat R, U.ZeroOne ∧ Computes N B dims [.gate U (.list qs) none] σ := by
  classical
  let U : Mat R := ⟨dims.prod, dims.prod, fun i j =>
    if ∃ t : Levels dims, value dims t.1 = j ∧ value dims (σ t).1 = i then 1 else 0⟩
  have hpos : 0 < dims.length := List.length_pos_iff.2 hne
  have he : ∀ s t : Levels dims, U.e (value dims s.1) (value dims t.1) = if s = σ t then 1 else 0 := by
    intro s t
    have : (∃ u : Levels dims, value dims u.1 = value dims t.1 ∧ value dims (σ u).1 = value dims s.1) ↔ s = σ t := by
      constructor
      · rintro ⟨u, h1, h3⟩
        have e1 : u = t := Subtype.ext (value_inj (mem_states.1 u.2) (mem_states.1 t.2) h1)
        have e2 : σ u = s := Subtype.ext (value_inj (mem_states.1 (σ u).2) (mem_states.1 s.2) h3)
        rw [← e2, e1]
      · rintro rfl
        exact ⟨t, rfl, rfl⟩
    simp only [U, this]
  have hz : U.ZeroOne := by
    intro i _ j _
    simp only [U]
    split <;> simp
  have hu : U.Unitary := by
    intro i hi j hj
    obtain ⟨s, hs, rfl⟩ := exists_value hi
    obtain ⟨t, ht, rfl⟩ := exists_value hj
    rw [Mat.gram, sum_range_prod]
    have hs' := mem_states.2 hs
    have ht' := mem_states.2 ht
    have : ∀ u ∈ states dims, U.e (value dims s) (value dims u) * star (U.e (value dims t) (value dims u))
        = if (σ.symm ⟨s, hs'⟩).1 = u then (if s = t then 1 else 0) else 0 := by
      intro u hu
      rw [he ⟨s, hs'⟩ ⟨u, hu⟩, he ⟨t, ht'⟩ ⟨u, hu⟩]
      by_cases e : (σ.symm ⟨s, hs'⟩).1 = u
      · have e1 : (⟨s, hs'⟩ : Levels dims) = σ ⟨u, hu⟩ := by
          rw [← Equiv.symm_apply_eq]; exact Subtype.ext e
        rw [if_pos e, if_pos e1, one_mul, ← e1]
        by_cases e2 : s = t
        · subst e2; simp
        · rw [if_neg e2, if_neg (fun h => e2 (congrArg Subtype.val h).symm), star_zero]
      · have e1 : (⟨s, hs'⟩ : Levels dims) ≠ σ ⟨u, hu⟩ := by
          intro h
          exact e (congrArg Subtype.val ((Equiv.symm_apply_eq σ).2 h))
        rw [if_neg e, if_neg e1, zero_mul]
    rw [map_congr_sum this]
    rw [sum_ite_eq _ (nodup_states dims) _ (σ.symm ⟨s, hs'⟩).2 fun _ => if s = t then (1 : R) else 0]
    by_cases e : s = t
    · subst e; simp
    · rw [if_neg e, if_neg (fun h => e (value_inj hs ht h))]
  have hin : ∀ q ∈ qs, InRange dims q := by
    intro q hqq
    have := hq.2.2 q hqq
    exact ⟨by omega, by omega⟩
  have hsp := (span_eq hin hq).1
  have hsl : ((dims.drop (spanOf qs).1).take (spanOf qs).2) = dims := by
    rw [hsp]
    simp only [List.drop_zero]
    rw [List.take_of_length_le (by omega)]
  have hv : (Call.gate U (.list qs) none).Valid dims := by
    refine ⟨?_, hin, rfl, hlen, UnitaryCheck.yes U hz hu, ?_, ?_⟩
    · rintro rfl
      simpa using hq.1
    · rw [hsl]
    · rw [hsl]
  refine ⟨U, hz, fun s => ?_⟩
  have hs := mem_states.1 s.2
  rw [show [Call.gate U (.list qs) none] ++ [.measureAll] = [Call.gate U (.list qs) none] ++ .measureAll :: [] from rfl,
    script_valid hN hB hne (validStart_asInit h2 hs) (out := some ⟨dims, .state, .amplitude⟩) (by simp) (by simpa using hv) []]
  obtain ⟨-, -, -, -, -, eU⟩ := gate_block N hv hq
  have e : EqOn dims (stateAfter N dims (asInit s.1) [.gate U (.list qs) none]) (basis (σ s).1) := by
    intro u hu
    rw [stateAfter_eq, startLevels_asInit hs]
    refine (eU _ u hu).trans ((onBlock_all (by omega) _ _ u hu).trans ?_)
    have hu' := mem_states.2 hu
    have : ∀ t ∈ states dims, U.e (value dims u) (value dims t) * (basis s.1 t : R) =
        if s.1 = t then (if u = (σ s).1 then 1 else 0) else 0 := by
      intro t ht
      rw [he ⟨u, hu'⟩ ⟨t, ht⟩]
      unfold basis
      by_cases e : s.1 = t
      · have : s = ⟨t, ht⟩ := Subtype.ext e
        rw [if_pos e.symm, if_pos e, ← this, mul_one]
        simp [Subtype.ext_iff]
      · have e' : ¬ t = s.1 := fun h => e h.symm
        rw [if_neg e, if_neg e', mul_zero]
    simp only []
    rw [map_congr_sum this, sum_ite_eq _ (nodup_states dims) _ s.2 fun _ => if u = (σ s).1 then (1 : R) else 0]
    rfl
  simp only [QuDiet.listing]
  rw [outcome_congr e, outcome_basis (R := R) (mem_states.1 (σ s).2)]
  rfl

/-- **C88.** A custom gate on two registers never runs when it is given the list of the two (`C38_two_register_gate_never_runs`),
but it does when one of them is named twice: `gate(U, [a, b, b])` with `a < b` multiplies the levels of the registers
from `a` to `b`, taken together, by the matrix. -/
theorem C88_repeat_to_run [Nontrivial R] (hN : N.Sized) (hB : B.Lawful) {init : List Int}
    (h : ValidStart (dims.map Int.ofNat) init) {out : Option Output} (ho : ∀ o ∈ out, o.base = dims)
    {pre : List (Call R)} (hpre : ∀ k ∈ pre, k.Valid dims) {a b : Nat} (hab : a < b) (hb : b < dims.length)
    {U : Mat R} (hU : U.isUnitary = true) (hr : U.rows = ((dims.drop a).take (b + 1 - a)).prod)
    (hc : U.cols = ((dims.drop a).take (b + 1 - a)).prod) :
    (∃ e, script N B (.list (dims.map Int.ofNat)) init out (pre ++ [.gate U (.list [(a : Int), b]) none, .measureAll])
      = .error e) ∧
    ∃ ψ ψ' : State R,
      script N B (.list (dims.map Int.ofNat)) init out (pre ++ [.measureAll])
        = .ok (listing (format dims out) dims ψ) ∧
      script N B (.list (dims.map Int.ofNat)) init out (pre ++ [.gate U (.list [(a : Int), b, b]) none, .measureAll])
        = .ok (listing (format dims out) dims ψ') ∧
      ∀ s, ψ' s = ((states ((dims.drop a).take (b + 1 - a))).map fun m =>
        U.e (value ((dims.drop a).take (b + 1 - a)) ((s.drop a).take (b + 1 - a))) (value ((dims.drop a).take (b + 1 - a)) m) *
          ψ (s.take a ++ m ++ s.drop (b + 1))).sum := by
  have hne : dims ≠ [] := by rintro rfl; simp at hb
  constructor
  · exact (C38_two_register_gate_never_runs hN hB h out (fun hm => (hpre _ hm).elim) [.measureAll] (by omega) hb U).2
  have hsp : (RegArg.list [(a : Int), b, b]).Spans a b := by
    refine ⟨by simp, by simp, ?_⟩
    intro q hq
    simp only [List.mem_cons, List.not_mem_nil, or_false, or_self] at hq
    omega
  have hin : ∀ q ∈ [(a : Int), b, b], InRange dims q := by
    intro q hq
    have := hsp.2.2 q hq
    exact ⟨by omega, by omega⟩
  have e := (span_eq hin hsp).1
  obtain ⟨h1, h2⟩ := one_more hN hB hne h ho hpre (k := .gate U (.list [(a : Int), b, b]) none)
    ⟨by simp, hin, rfl, by simp, hU, by rw [e]; exact hr, by rw [e]; exact hc⟩
  refine ⟨_, _, h1, h2, fun s => ?_⟩
  simp only [meaning, e, onBlock]
  rw [show a + (b + 1 - a) = b + 1 by omega]

end

/-! ### Examples -/

/-- The matrix that exchanges two qubits. -/
def swapMat : Mat Int := ⟨4, 4, fun i j => if i = 2 * (j % 2) + j / 2 then 1 else 0⟩

/-- The matrix of `x` on a qubit. -/
def notMat : Mat Int := ⟨2, 2, fun i j => if i = j then 0 else 1⟩

example : (Call.gate swapMat (.list [0, 1, 1]) none).Valid [2, 2, 3] := by
  refine ⟨by decide, by decide, rfl, by decide, by decide +kernel, by decide +kernel, by decide +kernel⟩

/-- The registers of a custom gate in another order: the same gate. -/
example : SameResults sampleN (numpyBackend ℤ) [2, 2, 3] [.gate swapMat (.list [0, 1, 1]) none]
    [.gate swapMat (.list [1, 0, 0, 1]) none] :=
  C88_extent sampleN_sized numpy_lawful
    ⟨by decide, by decide, rfl, by decide, by decide +kernel, by decide +kernel, by decide +kernel⟩
    ⟨by decide, by decide, rfl, by decide, by decide +kernel, by decide +kernel, by decide +kernel⟩ (a := 0) (b := 1)
    (by simp [RegArg.Spans]) (by simp [RegArg.Spans])

/-- Exchanging two qubits twice does nothing. -/
example : SameResults sampleN (numpyBackend ℤ) [2, 2, 3]
    [.gate swapMat (.list [0, 1, 1]) none, .gate swapMat.adjoint (.list [0, 1, 1]) none] [] :=
  (C88_undo (dims := [2, 2, 3]) (U := swapMat) (q := .list [0, 1, 1]) (k := none) sampleN_sized numpy_lawful
    ⟨by decide, by decide, rfl, by decide, by decide +kernel, by decide +kernel, by decide +kernel⟩
    (by unfold Mat.Unitary swapMat; decide +kernel) (by decide +kernel)).1

/-- The product of two matrices. -/
example : SameResults sampleN (numpyBackend ℤ) [2, 3] [.gate notMat (.int 0) none, .gate notMat (.list [0]) none]
    [.gate (Mat.eye 2) (.int 0) (some 2)] :=
  C88_product sampleN_sized numpy_lawful
    ⟨by decide, .inl rfl, by decide +kernel, by decide +kernel, by decide +kernel⟩
    ⟨by decide, by decide, rfl, by decide, by decide +kernel, by decide +kernel, by decide +kernel⟩
    ⟨by decide, .inr (.inr (by decide)), by decide +kernel, by decide +kernel, by decide +kernel⟩ (a := 0) (b := 0)
    (by simp [RegArg.Spans]) (by simp [RegArg.Spans]) (by simp [RegArg.Spans]) (by decide +kernel)

/-- A Kronecker product. -/
example : SameResults sampleN (numpyBackend ℤ) [3, 2, 2] [.gate notMat (.int 1) none, .gate (Mat.eye 2) (.int 2) none]
    [.gate (notMat.kron (Mat.eye 2)) (.list [2, 1, 1]) none] :=
  C88_kron sampleN_sized numpy_lawful
    ⟨by decide, .inl rfl, by decide +kernel, by decide +kernel, by decide +kernel⟩
    ⟨by decide, .inl rfl, by decide +kernel, by decide +kernel, by decide +kernel⟩
    ⟨by decide, by decide, rfl, by decide, by decide +kernel, by decide +kernel, by decide +kernel⟩ (a := 1) (b := 1) (c := 2)
    (by simp [RegArg.Spans]) (by simp [RegArg.Spans]) (by simp [RegArg.Spans])

/-- Two qutrits exchanged by one custom gate. -/
example (σ : Equiv.Perm (Levels [3, 3])) :
    ∃ U : Mat Int, U.ZeroOne ∧ Computes sampleN (sparseBackend ℤ) [3, 3] [.gate U (.list [0, 1, 1]) none] σ :=
  C88_every_permutation sampleN_sized sparse_lawful (by simp) (by decide) σ (by simp [RegArg.Spans]) (by decide)

/-- A circuit as one gate: `x` on a qubit is the custom gate of its matrix. -/
example : SameResults sampleN (numpyBackend ℤ) [2] [.x 0 none 1] [.gate notMat (.int 0) none] :=
  C88_circuit_as_gate sampleN_sized numpy_lawful (by decide) (by simp [Call.Valid, InRange, DimOK])
    ⟨by decide, .inl rfl, by decide +kernel, by decide +kernel, by decide +kernel⟩ (by simp [RegArg.Spans]) (by
      have : ∀ s ∈ states [2], ∀ t ∈ states [2], notMat.e (value [2] s) (value [2] t) =
          amplitude sampleN (numpyBackend ℤ) [2] (asInit t) [.x 0 none 1] s := by decide +kernel
      exact fun s t hs ht => this s (mem_states.2 hs) t (mem_states.2 ht))

/-- The hypotheses of `C88_repeat_to_run`. -/
example : (∃ e, script sampleN (numpyBackend ℤ) (.list [2, 2]) [1] none
    ([.x 0 none 1] ++ [.gate swapMat (.list [0, 1]) none, .measureAll]) = .error e) :=
  (C88_repeat_to_run (a := 0) (b := 1) (dims := [2, 2]) sampleN_sized numpy_lawful (validStart_of rfl) (by simp)
    (pre := [.x 0 none 1]) (by simp [Call.Valid, InRange, DimOK]) (by decide) (by decide) (U := swapMat)
    (by decide +kernel) (by decide) (by decide)).1

end QuDiet
