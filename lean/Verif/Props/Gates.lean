import Verif.Props.Sequential
import Verif.Lemmas.Poison

/-! # C03–C06, C18, C19, C37–C39: single gate calls -/

namespace QuDiet
open Spec

variable {R : Type} [CommRing R] [StarRing R] [DecidableEq R] [UnitaryCheck R] [Nontrivial R]

/-! ### Adding one call to a circuit -/

/-- The state that the circuit has after the calls `pre`, as shown by `run()`, and the one after one more
call. -/
theorem one_more {N : Numerics R} (hN : N.Sized) {B : Backend R} (hB : B.Lawful)
    {dims : List Nat} (hne : dims ≠ []) {init : List Int} (h : ValidStart (dims.map Int.ofNat) init)
    {out : Option Output} (ho : ∀ o ∈ out, o.base = dims)
    {pre : List (Call R)} (hpre : ∀ k ∈ pre, k.Valid dims) {k : Call R} (hk : k.Valid dims) :
    script N B (.list (dims.map Int.ofNat)) init out (pre ++ [.measureAll])
      = .ok (listing (format dims out) dims (stateAfter N dims init pre)) ∧
    script N B (.list (dims.map Int.ofNat)) init out (pre ++ [k, .measureAll])
      = .ok (listing (format dims out) dims (meaning N dims k (stateAfter N dims init pre))) := by
  refine ⟨script_valid hN hB hne h ho hpre [], ?_⟩
  have := script_valid hN hB hne h ho (ks := pre ++ [k]) (by
    intro k' hk'
    rcases List.mem_append.1 hk' with h1 | h1
    · exact hpre _ h1
    · rw [List.mem_singleton] at h1; rw [h1]; exact hk) []
  simp only [List.append_assoc, List.cons_append, List.nil_append] at this
  rw [this, stateAfter, List.foldl_append]
  rfl

omit [StarRing R] [DecidableEq R] [UnitaryCheck R] [Nontrivial R] in
theorem answer_eq {q : RegsArg} {dims : List Nat}
    (hq : q.dims = dims.map Int.ofNat) {init : List Int}
    (h : ValidStart (dims.map Int.ofNat) init) (out : Option Output) (ks : List (Call R)) (k : Call R) :
    answer q init out ks k = (((freshCircuit q dims init out).calls ks).call k).2 := by
  unfold answer
  rw [new_ok hq h out]
  rfl

/-- A call before `measure_all()` that is not rejected returns `True`. -/
theorem answer_ok {dims : List Nat} (hne : dims ≠ []) {init : List Int}
    (h : ValidStart (dims.map Int.ofNat) init) (out : Option Output) {ks : List (Call R)}
    (hks : .measureAll ∉ ks) {k : Call R} (hm : k.isMeasureAll = false)
    (hr : fate dims k ≠ .rejected) (ho : fate dims k ≠ .odd) :
    answer (.list (dims.map Int.ofNat)) init out ks k = .ok true := by
  rw [answer_eq rfl h]
  have hno : ∀ k ∈ ks, k.isMeasureAll = false := by
    intro k hk
    cases k <;> first | rfl | exact absurd hk hks
  have hpos := List.length_pos_of_ne_nil hne
  obtain ⟨⟨layers, hu⟩, f0, hf0⟩ := calls_any ks hno
    (fresh_any (q := .list (dims.map Int.ofNat)) hpos init out)
  have hN : (⟨fun d => List.replicate d 1, fun _ => 1⟩ : Numerics R).Sized := fun d _ => by simp
  obtain ⟨ra, lb, ub, g, hE⟩ := emits_all hN (ge_two_of_valid h) hpos hu.regDims hu.regLength
    (k := k) (fun _ => by rw [hf0]; exact list_toRegs dims) hm hr ho
  obtain ⟨f, layers', h1, _⟩ := addMoment_spec hu (bI := fun _ => ()) (fun _ _ => trivial) hE.gateAt ()
    (fun _ => trivial)
  simp only [Circuit.call, hE.call _ h1]

omit [StarRing R] [DecidableEq R] [UnitaryCheck R] [Nontrivial R] in
/-- A call that raises in every circuit on these registers raises, and makes no difference. -/
theorem answer_error {q : RegsArg} {dims : List Nat} (hq : q.dims = dims.map Int.ofNat) {init : List Int}
    (h : ValidStart (dims.map Int.ofNat) init) (out : Option Output) {ks : List (Call R)}
    {k : Call R} {e : Err}
    (herr : ∀ c : Circuit R, c.regDims = dims → c.regLength = dims.length → c.callM k = .error e)
    (hne : dims ≠ []) :
    answer q init out ks k = .error e := by
  rw [answer_eq hq h]
  obtain ⟨⟨f, hf⟩, _⟩ := reach_any (R := R) (q := q)
    (List.length_pos_of_ne_nil hne) init out ks
  simp only [Circuit.call]
  rw [herr _ (by rw [hf]; rfl) (by rw [hf]; rfl)]

/-! ### C03 -/

/-- **C03.** `x(q, plus=p)` with `-d ≤ p < d` moves the amplitude of every basis state to the state
with register `q` increased by `p` modulo `d`. -/
theorem C03_x_adds {N : Numerics R} (hN : N.Sized) {B : Backend R} (hB : B.Lawful)
    {dims : List Nat} {init : List Int} (h : ValidStart (dims.map Int.ofNat) init)
    {out : Option Output} (ho : ∀ o ∈ out, o.base = dims)
    {pre : List (Call R)} (hpre : ∀ k ∈ pre, k.Valid dims) {q : Nat} (hq : q < dims.length)
    {p : Int} (hp : -(dims[q] : Int) ≤ p ∧ p < dims[q]) :
    ∃ ψ ψ' : State R,
      script N B (.list (dims.map Int.ofNat)) init out (pre ++ [.measureAll])
        = .ok (listing (format dims out) dims ψ) ∧
      script N B (.list (dims.map Int.ofNat)) init out (pre ++ [.x q none p, .measureAll])
        = .ok (listing (format dims out) dims ψ') ∧
      ∀ s, Fits dims s → ψ' (s.set q (((s.getD q 0 : Int) + p) % dims[q]).toNat) = ψ s := by
  have hne : dims ≠ [] := by rintro rfl; simp at hq
  have hd : dims.getD q 0 = dims[q] := by simp [List.getD_eq_getElem?_getD, hq]
  obtain ⟨h1, h2⟩ := one_more hN hB hne h ho hpre (k := .x q none p)
    ⟨by unfold InRange; omega, .inl rfl, by rw [Int.toNat_natCast, hd]; exact hp.1,
      by rw [Int.toNat_natCast, hd]; exact hp.2⟩
  refine ⟨_, _, h1, h2, ?_⟩
  intro s hs
  have := move_apply hs (f := bump dims q p) (fun t ht e => bump_inj hs ht hq e) (stateAfter N dims init pre)
  simp only [bump, hd] at this
  exact this

/-- **C03**, other increments: the call is accepted, and every later `run()` raises, whatever the
other calls are. -/
theorem C03_x_out_of_range {N : Numerics R} (hN : N.Sized) {B : Backend R} (hB : B.Lawful)
    {dims : List Nat} {init : List Int} (h : ValidStart (dims.map Int.ofNat) init)
    (out : Option Output) {pre : List (Call R)} (hpre : .measureAll ∉ pre) (post : List (Call R))
    {q : Nat} (hq : q < dims.length) {p : Int} (hp : p < -(dims[q] : Int) ∨ dims[q] ≤ p) :
    answer (.list (dims.map Int.ofNat)) init out pre (.x q none p : Call R) = .ok true ∧
    ∃ e, script N B (.list (dims.map Int.ofNat)) init out (pre ++ .x q none p :: post) = .error e := by
  have hne : dims ≠ [] := by rintro rfl; simp at hq
  have h2 := ge_two_of_valid h
  have hd : dimAt dims q = dims[q] := by
    unfold dimAt
    rw [Int.emod_eq_of_lt (by omega) (by omega)]
    simp [List.getD_eq_getElem?_getD, hq]
  have hb : fate dims (.x q none p : Call R) = .broken := by
    simp only [fate, fateOne, hd]
    rw [if_neg (by omega), if_neg (by simp), if_neg (by omega), if_neg]
    simp only [decide_eq_true_eq]
    omega
  exact ⟨answer_ok hne h out hpre rfl (by simp [hb]) (by simp [hb]),
    script_faulty hN hB hne h out hpre hb (.inl rfl) post⟩

example {B : Backend ℤ} (hB : B.Lawful) : ∃ ψ ψ' : State ℤ,
    script sampleN B (.list [3, 2]) [1] none ([.cx 0 1 1] ++ [.measureAll]) = .ok (listing (format [3, 2] none) [3, 2] ψ) ∧
    script sampleN B (.list [3, 2]) [1] none ([.cx 0 1 1] ++ [.x 0 none (-3), .measureAll])
      = .ok (listing (format [3, 2] none) [3, 2] ψ') ∧
    ∀ s, Fits [3, 2] s → ψ' (s.set 0 (((s.getD 0 0 : Int) + -3) % 3).toNat) = ψ s :=
  C03_x_adds sampleN_sized hB (dims := [3, 2]) (validStart_of rfl) (by simp) (by simp [Call.Valid, InRange])
    (q := 0) (by simp) (by simp)

example {B : Backend ℤ} (hB : B.Lawful) (post : List (Call ℤ)) :
    ∃ e, script sampleN B (.list [3, 2]) [1] none ([.cx 0 7 1] ++ .x 0 none 3 :: post) = .error e :=
  (C03_x_out_of_range sampleN_sized hB (dims := [3, 2]) (validStart_of rfl) none (by simp) post
    (q := 0) (by simp) (by simp)).2

/-! ### C04, C05 -/

omit [StarRing R] [DecidableEq R] [UnitaryCheck R] [Nontrivial R] in
theorem move_controlled_spec {dims : List Nat} {cs : List Nat} {t : Nat} (ht : t < dims.length) (htc : t ∉ cs)
    (p : Int) (ψ : State R) {s : List Nat} (hs : Fits dims s) :
    ((∀ c ∈ cs, s.getD c 0 + 1 = dims.getD c 0) →
      move dims (controlled dims cs t p) ψ (s.set t (((s.getD t 0 : Int) + p) % dims[t]).toNat) = ψ s) ∧
    ((∃ c ∈ cs, s.getD c 0 + 1 ≠ dims.getD c 0) → move dims (controlled dims cs t p) ψ s = ψ s) := by
  have hd : dims.getD t 0 = dims[t] := by simp [List.getD_eq_getElem?_getD, ht]
  have := move_apply hs (f := controlled dims cs t p) (fun u hu e => controlled_inj hs hu ht htc e) ψ
  constructor
  · intro hc
    rw [controlled, if_pos (show ∀ c ∈ cs, atTop dims c s from hc)] at this
    simp only [bump, hd] at this
    exact this
  · rintro ⟨c, hc, hne⟩
    rw [controlled, if_neg (fun hall => hne (hall c hc))] at this
    exact this

/-- **C04.** `cx((c, t), p)` on two different registers, in either order and at any distance: the
amplitude of a basis state with `c` at its top level moves to the state with `t` increased by `p`
(any integer) modulo its dimension, all other amplitudes stay. -/
theorem C04_cx_controlled {N : Numerics R} (hN : N.Sized) {B : Backend R} (hB : B.Lawful)
    {dims : List Nat} {init : List Int} (h : ValidStart (dims.map Int.ofNat) init)
    {out : Option Output} (ho : ∀ o ∈ out, o.base = dims)
    {pre : List (Call R)} (hpre : ∀ k ∈ pre, k.Valid dims) {c t : Nat} (hc : c < dims.length)
    (ht : t < dims.length) (hct : c ≠ t) (p : Int) :
    ∃ ψ ψ' : State R,
      script N B (.list (dims.map Int.ofNat)) init out (pre ++ [.measureAll])
        = .ok (listing (format dims out) dims ψ) ∧
      script N B (.list (dims.map Int.ofNat)) init out (pre ++ [.cx c t p, .measureAll])
        = .ok (listing (format dims out) dims ψ') ∧
      ∀ s, Fits dims s →
        (s.getD c 0 = dims[c] - 1 → ψ' (s.set t (((s.getD t 0 : Int) + p) % dims[t]).toNat) = ψ s) ∧
        (s.getD c 0 ≠ dims[c] - 1 → ψ' s = ψ s) := by
  have hne : dims ≠ [] := by rintro rfl; simp at hc
  have hd : dims.getD c 0 = dims[c] := by simp [List.getD_eq_getElem?_getD, hc]
  obtain ⟨h1, h2⟩ := one_more hN hB hne h ho hpre (k := .cx c t p) ⟨by unfold InRange; omega, by unfold InRange; omega⟩
  refine ⟨_, _, h1, h2, ?_⟩
  intro s hs
  have hlt := fits_getD_lt hs c hc
  have key := move_controlled_spec ht (cs := [c]) (by simpa using hct.symm) p (stateAfter N dims init pre) hs
  simp only [List.mem_singleton, forall_eq, exists_eq_left, hd] at key
  rw [hd] at hlt
  exact ⟨fun e => key.1 (by omega), fun e => key.2 (by omega)⟩

example {B : Backend ℤ} (hB : B.Lawful) : ∃ ψ ψ' : State ℤ,
    script sampleN B (.list [3, 2, 4]) [1] none ([.cx 0 1 1] ++ [.measureAll])
      = .ok (listing (format [3, 2, 4] none) [3, 2, 4] ψ) ∧
    script sampleN B (.list [3, 2, 4]) [1] none ([.cx 0 1 1] ++ [.cx 2 0 (-7), .measureAll])
      = .ok (listing (format [3, 2, 4] none) [3, 2, 4] ψ') ∧
    ∀ s, Fits [3, 2, 4] s →
      (s.getD 2 0 = 3 → ψ' (s.set 0 (((s.getD 0 0 : Int) + -7) % 3).toNat) = ψ s) ∧
      (s.getD 2 0 ≠ 3 → ψ' s = ψ s) :=
  C04_cx_controlled sampleN_sized hB (dims := [3, 2, 4]) (validStart_of rfl) (by simp)
    (by simp [Call.Valid, InRange]) (c := 2) (t := 0) (by simp) (by simp) (by simp) (-7)

/-- **C05.** `toffoli((cs, t), p)` without controls or on registers that span at least three positions: the amplitude
of a basis state with every control at its top level moves to the state with `t` increased by `p`
modulo its dimension, all other amplitudes stay. -/
theorem C05_toffoli_controlled {N : Numerics R} (hN : N.Sized) {B : Backend R} (hB : B.Lawful)
    {dims : List Nat} {init : List Int} (h : ValidStart (dims.map Int.ofNat) init)
    {out : Option Output} (ho : ∀ o ∈ out, o.base = dims)
    {pre : List (Call R)} (hpre : ∀ k ∈ pre, k.Valid dims) {cs : List Nat} {t : Nat}
    (hcs : ∀ c ∈ cs, c < dims.length) (ht : t < dims.length) (htc : t ∉ cs)
    (hspan : cs = [] ∨ ∃ a ∈ t :: cs, ∃ b ∈ t :: cs, a + 2 ≤ b) (p : Int) :
    ∃ ψ ψ' : State R,
      script N B (.list (dims.map Int.ofNat)) init out (pre ++ [.measureAll])
        = .ok (listing (format dims out) dims ψ) ∧
      script N B (.list (dims.map Int.ofNat)) init out
          (pre ++ [.toffoli (cs.map Int.ofNat) t p, .measureAll])
        = .ok (listing (format dims out) dims ψ') ∧
      ∀ s, Fits dims s →
        ((∀ c ∈ cs, s.getD c 0 + 1 = dims.getD c 0) →
          ψ' (s.set t (((s.getD t 0 : Int) + p) % dims[t]).toNat) = ψ s) ∧
        ((∃ c ∈ cs, s.getD c 0 + 1 ≠ dims.getD c 0) → ψ' s = ψ s) := by
  have hne : dims ≠ [] := by rintro rfl; simp at ht
  have hcs' : (cs.map Int.ofNat).map Int.toNat = cs := by simp [Function.comp_def]
  obtain ⟨h1, h2⟩ := one_more hN hB hne h ho hpre (k := .toffoli (cs.map Int.ofNat) t p) (by
    refine ⟨by unfold InRange; omega, ?_, ?_, ?_⟩
    · intro c hc
      obtain ⟨c', hc', rfl⟩ := List.mem_map.1 hc
      have := hcs c' hc'
      unfold InRange
      simp
      omega
    · intro hm
      obtain ⟨c', hc', e⟩ := List.mem_map.1 hm
      have : c' = t := by simpa using e
      exact htc (this ▸ hc')
    · obtain rfl | ⟨a, ha, b, hb, hab⟩ := hspan
      · simp [spanOf]
      have mem : ∀ a ∈ t :: cs, (a : Int) ∈ cs.map Int.ofNat ++ [(t : Int)] := by
        intro a ha
        rcases List.mem_cons.1 ha with rfl | ha
        · simp
        · exact List.mem_append_left _ (List.mem_map.2 ⟨a, ha, rfl⟩)
      have h3 := (foldl_min_le _ ((cs.map Int.ofNat ++ [(t : Int)]).headD 0)).2 _ (mem a ha)
      have h4 := (foldl_max_ge _ ((cs.map Int.ofNat ++ [(t : Int)]).headD 0)).2 _ (mem b hb)
      simp only [spanOf]
      omega)
  refine ⟨_, _, h1, h2, ?_⟩
  intro s hs
  have key := move_controlled_spec ht htc p (stateAfter N dims init pre) hs
  simp only [meaning, hcs', Int.toNat_natCast]
  exact key

example {B : Backend ℤ} (hB : B.Lawful) : ∃ ψ ψ' : State ℤ,
    script sampleN B (.list [3, 2, 4, 2]) [1] none ([.cx 0 1 1] ++ [.measureAll])
      = .ok (listing (format [3, 2, 4, 2] none) [3, 2, 4, 2] ψ) ∧
    script sampleN B (.list [3, 2, 4, 2]) [1] none ([.cx 0 1 1] ++ [.toffoli [3, 0] 2 5, .measureAll])
      = .ok (listing (format [3, 2, 4, 2] none) [3, 2, 4, 2] ψ') ∧
    ∀ s, Fits [3, 2, 4, 2] s →
      ((∀ c ∈ [3, 0], s.getD c 0 + 1 = [3, 2, 4, 2].getD c 0) →
        ψ' (s.set 2 (((s.getD 2 0 : Int) + 5) % 4).toNat) = ψ s) ∧
      ((∃ c ∈ [3, 0], s.getD c 0 + 1 ≠ [3, 2, 4, 2].getD c 0) → ψ' s = ψ s) :=
  C05_toffoli_controlled sampleN_sized hB (dims := [3, 2, 4, 2]) (validStart_of rfl) (by simp)
    (by simp [Call.Valid, InRange]) (cs := [3, 0]) (t := 2) (by simp) (by simp) (by simp) (by simp) 5

/-! ### C06 -/

/-- **C06.** A toffoli on existing registers that span exactly two positions is accepted, and every
later `run()` raises, whatever the other calls are. -/
theorem C06_adjacent_toffoli_never_runs {N : Numerics R} (hN : N.Sized) {B : Backend R} (hB : B.Lawful)
    {dims : List Nat} {init : List Int} (h : ValidStart (dims.map Int.ofNat) init)
    (out : Option Output) {pre : List (Call R)} (hpre : .measureAll ∉ pre) (post : List (Call R))
    {a : Nat} (ha : a + 1 < dims.length) {cs : List Int} {t : Int}
    (hin : ∀ q ∈ t :: cs, q = a ∨ q = a + 1) (h1 : (a : Int) ∈ t :: cs) (h2 : (a : Int) + 1 ∈ t :: cs)
    (p : Int) :
    answer (.list (dims.map Int.ofNat)) init out pre (.toffoli cs t p : Call R) = .ok true ∧
    ∃ e, script N B (.list (dims.map Int.ofNat)) init out (pre ++ .toffoli cs t p :: post) = .error e := by
  have hne : dims ≠ [] := by rintro rfl; simp at ha
  have mem : ∀ q, q ∈ cs ++ [t] ↔ q ∈ t :: cs := by intro q; simp [or_comm]
  have hspan : (spanOf (cs ++ [t])).2 = 2 := by
    have m1 := (foldl_min_le (cs ++ [t]) ((cs ++ [t]).headD 0)).2 _ ((mem _).2 h1)
    have m2 := (foldl_max_ge (cs ++ [t]) ((cs ++ [t]).headD 0)).2 _ ((mem _).2 h2)
    have hh : (cs ++ [t]).headD 0 ∈ cs ++ [t] := by cases cs <;> simp
    have m3 : (cs ++ [t]).foldl min ((cs ++ [t]).headD 0) ∈ cs ++ [t] := by
      rcases foldl_min_mem (cs ++ [t]) ((cs ++ [t]).headD 0) with h | h
      · rw [h]; exact hh
      · exact h
    have m4 : (cs ++ [t]).foldl max ((cs ++ [t]).headD 0) ∈ cs ++ [t] := by
      rcases foldl_max_mem (cs ++ [t]) ((cs ++ [t]).headD 0) with h | h
      · rw [h]; exact hh
      · exact h
    have m5 := hin _ ((mem _).1 m3)
    have m6 := hin _ ((mem _).1 m4)
    simp only [spanOf]
    omega
  have hb : fate dims (.toffoli cs t p : Call R) = .broken := by
    simp only [fate]
    rw [if_neg, if_neg, if_neg, if_neg]
    · rintro ⟨h, _⟩; exact h hspan
    · rintro ⟨q, hq, h⟩; have := hin q ((mem q).1 hq); omega
    · intro h; have := h _ ((mem _).2 h1); omega
    · rintro ⟨q, hq, h⟩; have := hin q ((mem q).1 hq); omega
  exact ⟨answer_ok hne h out hpre rfl (by simp [hb]) (by simp [hb]),
    script_faulty hN hB hne h out hpre hb trivial post⟩

/-- **C06**, the other half: with the control at a distance of two or more, `toffoli(([c], t), p)` and
`cx((c, t), p)` are interchangeable. -/
theorem C06_distant_toffoli_is_cx {N : Numerics R} (hN : N.Sized) {B : Backend R} (hB : B.Lawful)
    {dims : List Nat} {init : List Int} (h : ValidStart (dims.map Int.ofNat) init)
    {out : Option Output} {pre post : List (Call R)}
    (hpre : ∀ k ∈ pre, k.Valid dims) (hpost : ∀ k ∈ post, k.Valid dims)
    {c t : Nat} (hc : c < dims.length) (ht : t < dims.length) (hct : c + 2 ≤ t ∨ t + 2 ≤ c) (p : Int) :
    script N B (.list (dims.map Int.ofNat)) init out (pre ++ .toffoli [(c : Int)] t p :: post ++ [.measureAll]) =
      script N B (.list (dims.map Int.ofNat)) init out (pre ++ .cx c t p :: post ++ [.measureAll]) := by
  have hne : dims ≠ [] := by rintro rfl; simp at hc
  have v : ∀ {x : Call R}, x.Valid dims → ∀ k ∈ pre ++ x :: post, k.Valid dims := by
    intro x hx k hk
    simp only [List.mem_append, List.mem_cons] at hk
    rcases hk with hk | rfl | hk
    · exact hpre k hk
    · exact hx
    · exact hpost k hk
  have hic : InRange dims c := by unfold InRange; omega
  have hit : InRange dims t := by unfold InRange; omega
  refine script_congr hN hB hne h h out (v (x := .toffoli [(c : Int)] t p) ⟨hit, by simpa using hic, by simp; omega, by
      simp only [spanOf, List.singleton_append, List.headD_cons, List.foldl_cons, List.foldl_nil]; omega⟩)
    (v (x := .cx c t p) ⟨hic, hit⟩) (fun s _ => ?_) [] []
  unfold stateAfter
  rw [List.foldl_append, List.foldl_append]
  rfl

example {B : Backend ℤ} (hB : B.Lawful) (post : List (Call ℤ)) :
    ∃ e, script sampleN B (.list [3, 2, 2]) [1] none ([.x 0 none 1] ++ .toffoli [2] 1 1 :: post) = .error e :=
  (C06_adjacent_toffoli_never_runs sampleN_sized hB (dims := [3, 2, 2]) (validStart_of rfl) none (by simp) post
    (a := 1) (by simp) (by simp) (by simp) (by simp) 1).2

example {B : Backend ℤ} (hB : B.Lawful) :
    script sampleN B (.list [3, 2, 2]) [1] none ([.x 0 none 1] ++ .toffoli [2] 0 1 :: [.x 1 none 1] ++ [.measureAll]) =
    script sampleN B (.list [3, 2, 2]) [1] none ([.x 0 none 1] ++ .cx 2 0 1 :: [.x 1 none 1] ++ [.measureAll]) :=
  C06_distant_toffoli_is_cx sampleN_sized hB (dims := [3, 2, 2]) (validStart_of rfl)
    (by simp [Call.Valid, InRange, DimOK]) (by simp [Call.Valid, InRange, DimOK]) (c := 2) (t := 0)
    (by simp) (by simp) (by simp) 1

/-! ### C39 -/

omit [Nontrivial R] in
/-- **C39.** If a call raises, everything later is as if it had not been made: the circuit object is
the same (so depth, counts and layers are), and so is the result of every continuation. -/
theorem C39_raising_call_changes_nothing (N : Numerics R) (B : Backend R) (q : RegsArg) (init : List Int)
    (out : Option Output) (pre post : List (Call R)) {k : Call R} {e : Err}
    (he : answer q init out pre k = .error e) :
    script N B q init out (pre ++ k :: post) = script N B q init out (pre ++ post) ∧
    ∀ c : Circuit R, Circuit.new q init out = .ok c → c.calls (pre ++ [k]) = c.calls pre := by
  unfold answer at he
  have same : ∀ c : Circuit R, ((c.calls pre).call k).2 = .error e → ((c.calls pre).call k).1 = c.calls pre := by
    intro c hc
    unfold Circuit.call at hc ⊢
    cases hm : (c.calls pre).callM k with
    | error e => rfl
    | ok r => rw [hm] at hc; simp at hc
  cases hn : Circuit.new (R := R) q init out with
  | error e' =>
    refine ⟨?_, fun c hc => by cases hc⟩
    unfold script
    rw [hn]
    rfl
  | ok c =>
    rw [hn] at he
    have := same c he
    refine ⟨?_, ?_⟩
    · unfold script
      rw [hn]
      change ((c.calls (pre ++ k :: post)).run N B).2 = ((c.calls (pre ++ post)).run N B).2
      rw [Circuit.calls_append, Circuit.calls_cons, this, Circuit.calls_append]
    · intro c' hc'
      cases hc'
      rw [Circuit.calls_append, Circuit.calls_cons, this]
      rfl

example : answer (R := ℤ) (.list [3, 2]) [1] none [.cx 0 1 1] (.h 2 none) = .error .value := by rfl

/-! ### C18 -/

omit [StarRing R] [DecidableEq R] [UnitaryCheck R] [Nontrivial R] in
/-- The three calls on one register. -/
theorem hxz_callM (c : Circuit R) (q : Int) (o : Option Nat) (p : Int) {k : Call R}
    (hk : k ∈ [.h q o, .x q o p, .z q o]) {e : Err}
    (he : c.validate q o = .error e ∨ (c.validate q o = .ok () ∧ c.gateDims q o = .error e)) :
    c.callM k = .error e := by
  simp only [List.mem_cons, List.not_mem_nil, or_false] at hk
  rcases hk with rfl | rfl | rfl <;> rcases he with he | ⟨he, hg⟩ <;>
    simp only [Circuit.callM, he, bind, Except.bind] <;> simp only [hg]

omit [Nontrivial R] in
/-- **C18**, registers that do not exist: at or beyond the end `ValueError`, before the beginning
`IndexError`, and nothing changes. -/
theorem C18_missing_register {q : RegsArg} {dims : List Nat} (hq : q.dims = dims.map Int.ofNat)
    (hne : dims ≠ []) {init : List Int} (h : ValidStart (dims.map Int.ofNat) init)
    (out : Option Output) (pre : List (Call R)) {r : Int} {o : Option Nat} {p : Int} {k : Call R}
    (hk : k ∈ [.h r o, .x r o p, .z r o]) :
    ((dims.length : Int) ≤ r → answer q init out pre k = .error .value) ∧
    (r < -(dims.length : Int) → answer q init out pre k = .error .index) ∧
    ((dims.length : Int) ≤ r ∨ r < -(dims.length : Int) → ∀ (N : Numerics R) (B : Backend R) (post : List (Call R)),
      script N B q init out (pre ++ k :: post) = script N B q init out (pre ++ post)) := by
  have h1 : (dims.length : Int) ≤ r → answer q init out pre k = .error .value := by
    intro hr
    refine answer_error hq h out (fun c hd hl => hxz_callM c r o p hk (.inl ?_)) hne
    unfold Circuit.validate
    rw [if_pos (by rw [hl]; omega)]
  have h2 : r < -(dims.length : Int) → answer q init out pre k = .error .index := by
    intro hr
    refine answer_error hq h out (fun c hd hl => hxz_callM c r o p hk ?_) hne
    have hg : pyGet c.regDims r = .error .index := by
      unfold pyGet
      rw [pyIndex_error (by rw [hd]; omega)]
    unfold Circuit.validate Circuit.gateDims
    rw [if_neg (by rw [hl]; omega)]
    rcases o with _ | _ | o
    · exact .inr ⟨rfl, hg⟩
    · exact .inr ⟨rfl, hg⟩
    · left; simp only [hg]
  refine ⟨h1, h2, ?_⟩
  rintro (hr | hr) N B post
  · exact (C39_raising_call_changes_nothing N B q init out pre post (h1 hr)).1
  · exact (C39_raising_call_changes_nothing N B q init out pre post (h2 hr)).1

/-- A call that is skipped does not change whether and what `run()` returns. -/
theorem script_skip {N : Numerics R} (hN : N.Sized) {B : Backend R} (hB : B.Lawful)
    {dims : List Nat} (hne : dims ≠ []) {init : List Int} (h : ValidStart (dims.map Int.ofNat) init)
    {out : Option Output} (ho : ∀ o ∈ out, o.base = dims)
    {pre post : List (Call R)} (hpre : .measureAll ∉ pre)
    (hreg : ∀ k ∈ pre ++ post, fate dims k ≠ .odd) {k : Call R} (hk : fate dims k = .skipped)
    (res : List (Key × R)) :
    script N B (.list (dims.map Int.ofNat)) init out (pre ++ k :: post) = .ok res ↔
      script N B (.list (dims.map Int.ofNat)) init out (pre ++ post) = .ok res := by
  have hno : ∀ k ∈ pre, k.isMeasureAll = false := by
    intro k hk
    cases k <;> first | rfl | exact absurd hk hpre
  have hkm : k.isMeasureAll = false := by cases k <;> first | rfl | simp [fate] at hk
  have hl1 : live (pre ++ k :: post) = pre ++ k :: live post := by
    rw [live_prefix hno]
    simp [live, hkm]
  have hl2 : live (pre ++ post) = pre ++ live post := live_prefix hno
  have hsub : ∀ k ∈ live post, k ∈ post := fun k hk => (List.takeWhile_subset _) hk
  have hr2 : ∀ k ∈ live (pre ++ post), Regular dims k := by
    rw [hl2]
    intro k' hk'
    rcases List.mem_append.1 hk' with h | h
    · exact hreg k' (List.mem_append_left _ h)
    · exact hreg k' (List.mem_append_right _ (hsub _ h))
  have hr1 : ∀ k' ∈ live (pre ++ k :: post), Regular dims k' := by
    rw [hl1]
    intro k' hk'
    rcases List.mem_append.1 hk' with h | h
    · exact hreg k' (List.mem_append_left _ h)
    · rcases List.mem_cons.1 h with rfl | h
      · unfold Regular; rw [hk]; simp
      · exact hreg k' (List.mem_append_right _ (hsub _ h))
  by_cases hm : .measureAll ∈ post
  · by_cases hb : ∃ k ∈ live (pre ++ post), fate dims k = .broken
    · have hb1 : ∃ k' ∈ live (pre ++ k :: post), fate dims k' = .broken := by
        obtain ⟨k', hk', hf⟩ := hb
        refine ⟨k', ?_, hf⟩
        rw [hl2] at hk'
        rw [hl1]
        simp only [List.mem_append, List.mem_cons] at hk' ⊢
        tauto
      obtain ⟨e1, he1⟩ := script_broken hN hB hne h out _ hr1 hb1
      obtain ⟨e2, he2⟩ := script_broken hN hB hne h out _ hr2 hb
      rw [he1, he2]
      simp
    · have hb2 : ∀ k ∈ live (pre ++ post), fate dims k ≠ .broken := fun k hk hf => hb ⟨k, hk, hf⟩
      have hb1 : ∀ k' ∈ live (pre ++ k :: post), fate dims k' ≠ .broken := by
        rw [hl1]
        rw [hl2] at hb2
        intro k' hk'
        simp only [List.mem_append, List.mem_cons] at hk'
        rcases hk' with h | rfl | h
        · exact hb2 k' (List.mem_append_left _ h)
        · rw [hk]; simp
        · exact hb2 k' (List.mem_append_right _ h)
      rw [script_ok hN hB hne h out _ hr1 ho (by simp [hm]) hb1,
        script_ok hN hB hne h out _ hr2 ho (by simp [hm]) hb2, hl1, hl2]
      unfold finalState
      rw [List.filter_append, List.filter_cons_of_neg (by simp [hk]), List.filter_append]
  · rw [script_unmeasured hN hB hne h out _ hr1 (by
        simp only [List.mem_append, List.mem_cons, not_or]
        exact ⟨hpre, by rintro rfl; simp [Call.isMeasureAll] at hkm, hm⟩),
      script_unmeasured hN hB hne h out _ hr2 (by simp [hpre, hm])]

/-- **C18**, negative registers: `h`, `x`, `z` on `-n ≤ q < 0` are accepted and have no effect (negative
numbers are not resolved from the end). -/
theorem C18_negative_register_ignored {N : Numerics R} (hN : N.Sized) {B : Backend R} (hB : B.Lawful)
    {dims : List Nat} (hne : dims ≠ []) {init : List Int} (h : ValidStart (dims.map Int.ofNat) init)
    {out : Option Output} (ho : ∀ o ∈ out, o.base = dims)
    {pre post : List (Call R)} (hpre : .measureAll ∉ pre)
    (hreg : ∀ k ∈ pre ++ post, fate dims k ≠ .odd) {r : Int} (h1 : -(dims.length : Int) ≤ r) (h2 : r < 0)
    {p : Int} {k : Call R} (hk : k ∈ [.h r none, .x r none p, .z r none]) :
    answer (.list (dims.map Int.ofNat)) init out pre k = .ok true ∧
    ∀ res, script N B (.list (dims.map Int.ofNat)) init out (pre ++ k :: post) = .ok res ↔
      script N B (.list (dims.map Int.ofNat)) init out (pre ++ post) = .ok res := by
  have hf : fate dims k = .skipped := by
    have : ∀ good, fateOne dims r none good = .skipped := by
      intro good
      unfold fateOne
      rw [if_neg (by omega), if_neg (by simp), if_pos h2]
    simp only [List.mem_cons, List.not_mem_nil, or_false] at hk
    rcases hk with rfl | rfl | rfl <;> exact this _
  have hm : k.isMeasureAll = false := by
    simp only [List.mem_cons, List.not_mem_nil, or_false] at hk
    rcases hk with rfl | rfl | rfl <;> rfl
  exact ⟨answer_ok hne h out hpre hm (by simp [hf]) (by simp [hf]),
    script_skip hN hB hne h ho hpre hreg hf⟩

example {B : Backend ℤ} (hB : B.Lawful) : ∀ res,
    script sampleN B (.list [3, 2]) [1] none ([.cx 0 1 1] ++ .x (-1) none 1 :: [.measureAll]) = .ok res ↔
    script sampleN B (.list [3, 2]) [1] none ([.cx 0 1 1] ++ [.measureAll]) = .ok res :=
  (C18_negative_register_ignored sampleN_sized hB (dims := [3, 2]) (by simp) (validStart_of rfl) (by simp)
    (by simp) (by simp [fate]) (r := -1) (by simp) (by simp) (k := .x (-1) none 1) (p := 1) (by simp)).2

/-! ### C19 -/

omit [StarRing R] [DecidableEq R] [UnitaryCheck R] [Nontrivial R] in
/-- **C19.** `cx` never raises, whatever registers it is given. -/
theorem C19_cx_never_raises {q : RegsArg} {dims : List Nat} (hq : q.dims = dims.map Int.ofNat)
    (hne : dims ≠ []) {init : List Int} (h : ValidStart (dims.map Int.ofNat) init)
    (out : Option Output) (pre : List (Call R)) (c t p : Int) :
    ∃ b, answer q init out pre (.cx c t p : Call R) = .ok b ∧ (b = true ↔ .measureAll ∉ pre) := by
  rw [answer_eq hq h]
  obtain ⟨_, ⟨hno, layers, hu⟩ | ⟨hin, hM⟩⟩ := reach_any (R := R) (q := q) (List.length_pos_of_ne_nil hne) init out pre
  · rcases call_any hu (k := .cx c t p) rfl with ⟨hs, _⟩ | ⟨_, _, _, _, _, _, _, hc, _⟩
    · exfalso
      obtain ⟨e, he⟩ := hs.raises
      obtain ⟨lb, ub, hmin, hmax, hlbm, hubm, hlo, hhi⟩ := exists_bounds (qs := [c, t]) (by simp)
      have hga : GateAt (.list [c, t]) lb ub (.cx (if c < t then
          pySlice (Circuit.calls (freshCircuit q dims init out) pre).regDims c (t + 1)
        else pySlice (Circuit.calls (freshCircuit q dims init out) pre).regDims t (c + 1)) c t p : GateObj R) :=
        ⟨⟨hmin, hmax⟩, hlo ub hubm, rfl, rfl, rfl, hlbm, hubm, fun x hx => ⟨hlo x hx, hhi x hx⟩⟩
      obtain ⟨f, _, h1, _⟩ := addMoment_spec hu (bI := fun _ => ()) (fun _ _ => trivial) hga ()
        (fun _ => trivial)
      change Circuit.addMoment _ _ _ = _ at he
      rw [h1] at he
      cases he
    · exact ⟨true, by rw [hc], by simp [hno]⟩
  · refine ⟨false, ?_, by simp [hin]⟩
    obtain ⟨lb, ub, hmin, hmax, _⟩ := exists_bounds (qs := [c, t]) (by simp)
    have : Circuit.callM (Circuit.calls (freshCircuit (R := R) q dims init out) pre) (.cx c t p)
        = .ok (Circuit.calls (freshCircuit q dims init out) pre, false) := by
      change Circuit.addMoment _ _ _ = _
      unfold Circuit.addMoment
      obtain ⟨m, hm⟩ : ∃ m, Circuit.momentData (Circuit.calls (freshCircuit (R := R) q dims init out) pre)
          (.list [c, t]) (.cx (if c < t then
            pySlice (Circuit.calls (freshCircuit (R := R) q dims init out) pre).regDims c (t + 1)
          else pySlice (Circuit.calls (freshCircuit (R := R) q dims init out) pre).regDims t (c + 1)) c t p)
          = .ok m := by
        simp only [Circuit.momentData, hmin, hmax, bind, Except.bind]
        exact ⟨_, rfl⟩
      rw [hm]
      simp only [bind, Except.bind, populate_measured _ m hM.1 hM.2]
    simp only [Circuit.call, this]

/-- **C19.** If the interval between the two registers misses the circuit, `cx` has no effect. -/
theorem C19_cx_outside_is_noop {N : Numerics R} (hN : N.Sized) {B : Backend R} (hB : B.Lawful)
    {dims : List Nat} (hne : dims ≠ []) {init : List Int} (h : ValidStart (dims.map Int.ofNat) init)
    {out : Option Output} (ho : ∀ o ∈ out, o.base = dims)
    {pre post : List (Call R)} (hpre : .measureAll ∉ pre)
    (hreg : ∀ k ∈ pre ++ post, fate dims k ≠ .odd) {c t : Int} (p : Int)
    (hct : (c < 0 ∧ t < 0) ∨ ((dims.length : Int) ≤ c ∧ (dims.length : Int) ≤ t)) (res : List (Key × R)) :
    script N B (.list (dims.map Int.ofNat)) init out (pre ++ .cx c t p :: post) = .ok res ↔
      script N B (.list (dims.map Int.ofNat)) init out (pre ++ post) = .ok res := by
  apply script_skip hN hB hne h ho hpre hreg
  have := List.length_pos_of_ne_nil hne
  simp only [fate]
  rw [if_neg (by omega), if_pos (by omega)]

/-- **C19.** If the interval between the two registers overlaps the circuit but is not inside it, every
later `run()` raises, whatever the other calls are. -/
theorem C19_cx_overlap_never_runs {N : Numerics R} (hN : N.Sized) {B : Backend R} (hB : B.Lawful)
    {dims : List Nat} (hne : dims ≠ []) {init : List Int} (h : ValidStart (dims.map Int.ofNat) init)
    (out : Option Output) {pre : List (Call R)} (hpre : .measureAll ∉ pre) (post : List (Call R)) {c t : Int} (p : Int)
    (hin : ∃ r : Int, 0 ≤ r ∧ r < dims.length ∧ min c t ≤ r ∧ r ≤ max c t)
    (hout : ¬ (0 ≤ c ∧ c < dims.length ∧ 0 ≤ t ∧ t < dims.length)) :
    ∃ e, script N B (.list (dims.map Int.ofNat)) init out (pre ++ .cx c t p :: post) = .error e := by
  obtain ⟨r, h1, h2, h3, h4⟩ := hin
  refine script_faulty hN hB hne h out hpre (k := .cx c t p) ?_ trivial post
  simp only [fate]
  rw [if_neg (by omega), if_neg (by omega)]

example {B : Backend ℤ} (hB : B.Lawful) (res) :
    script sampleN B (.list [3, 2]) [1] none ([.x 0 none 1] ++ .cx 2 7 1 :: [.measureAll]) = .ok res ↔
    script sampleN B (.list [3, 2]) [1] none ([.x 0 none 1] ++ [.measureAll]) = .ok res :=
  C19_cx_outside_is_noop sampleN_sized hB (dims := [3, 2]) (by simp) (validStart_of rfl) (by simp)
    (by simp) (by simp [fate, fateOne, dimAt]) 1 (by simp) res

example {B : Backend ℤ} (hB : B.Lawful) (post) :
    ∃ e, script sampleN B (.list [3, 2]) [1] none ([.x 0 none 1] ++ .cx (-1) 0 1 :: post) = .error e :=
  C19_cx_overlap_never_runs sampleN_sized hB (dims := [3, 2]) (by simp) (validStart_of rfl) none
    (by simp) post 1 ⟨0, by simp⟩ (by simp)

/-! ### C37 -/

/-- **C37.** A `dims` argument larger than the register is rejected with `ValueError`. -/
theorem C37_oversized_rejected {q : RegsArg} {dims : List Nat} (hq : q.dims = dims.map Int.ofNat)
    {init : List Int} (h : ValidStart (dims.map Int.ofNat) init)
    (out : Option Output) (pre : List (Call R)) {r : Nat} (hr : r < dims.length) {d : Nat} (hd : dims[r] < d)
    {p : Int} {k : Call R} (hk : k ∈ [.h r (some d), .x r (some d) p, .z r (some d)]) :
    answer q init out pre k = .error .value := by
  have hne : dims ≠ [] := by rintro rfl; simp at hr
  refine answer_error hq h out (fun c h1 h2 => hxz_callM c r (some d) p hk (.inl ?_)) hne
  unfold Circuit.validate
  rw [if_neg (by rw [h2]; omega)]
  have hg : pyGet c.regDims (r : Int) = .ok dims[r] := by
    rw [h1, pyGet_ok (by omega) (by omega)]
    simp
  obtain ⟨d', rfl⟩ : ∃ d', d = d' + 1 := ⟨d - 1, by omega⟩
  simp only [hg]
  rw [if_pos (by omega)]

/-- **C37.** A `dims` argument smaller than the register (and not 0) is accepted, and every later
`run()` raises. The other calls must be classified (`Regular`). -/
theorem C37_undersized_never_runs {N : Numerics R} (hN : N.Sized) {B : Backend R} (hB : B.Lawful)
    {dims : List Nat} {init : List Int} (h : ValidStart (dims.map Int.ofNat) init)
    (out : Option Output) {pre : List (Call R)} (hpre : .measureAll ∉ pre) {post : List (Call R)}
    (hreg : ∀ k ∈ pre ++ post, fate dims k ≠ .odd) {r : Nat} (hr : r < dims.length) {d : Nat}
    (hd0 : 0 < d) (hd : d < dims[r]) {p : Int} {k : Call R}
    (hk : k ∈ [.h r (some d), .x r (some d) p, .z r (some d)]) :
    answer (.list (dims.map Int.ofNat)) init out pre k = .ok true ∧
    ∃ e, script N B (.list (dims.map Int.ofNat)) init out (pre ++ k :: post) = .error e := by
  have hne : dims ≠ [] := by rintro rfl; simp at hr
  have hda : dimAt dims r = dims[r] := by
    unfold dimAt
    rw [Int.emod_eq_of_lt (by omega) (by omega)]
    simp [List.getD_eq_getElem?_getD, hr]
  have hb : fate dims k = .broken := by
    have : ∀ good, fateOne dims r (some d) good = .broken := by
      intro good
      unfold fateOne
      rw [hda, if_neg (by omega), if_neg (by simp; omega), if_neg (by omega), if_neg (by simp; omega)]
    simp only [List.mem_cons, List.not_mem_nil, or_false] at hk
    rcases hk with rfl | rfl | rfl <;> exact this _
  have hm : k.isMeasureAll = false := by
    simp only [List.mem_cons, List.not_mem_nil, or_false] at hk
    rcases hk with rfl | rfl | rfl <;> rfl
  refine ⟨answer_ok hne h out hpre hm (by simp [hb]) (by simp [hb]), ?_⟩
  have hno : ∀ k ∈ pre, k.isMeasureAll = false := by
    intro k hk
    cases k <;> first | rfl | exact absurd hk hpre
  have hl1 : live (pre ++ k :: post) = pre ++ k :: live post := by
    rw [live_prefix hno]
    simp [live, hm]
  refine script_broken hN hB hne h out _ ?_ ⟨k, by rw [hl1]; simp, hb⟩
  rw [hl1]
  intro k' hk'
  rcases List.mem_append.1 hk' with h | h
  · exact hreg k' (List.mem_append_left _ h)
  · rcases List.mem_cons.1 h with rfl | h
    · unfold Regular; rw [hb]; simp
    · exact hreg k' (List.mem_append_right _ ((List.takeWhile_subset _) h))

example {B : Backend ℤ} (hB : B.Lawful) :
    ∃ e, script sampleN B (.list [3, 2]) [1] none ([.cx 0 1 1] ++ .h 0 (some 2) :: [.x 1 none 1, .measureAll]) = .error e :=
  (C37_undersized_never_runs sampleN_sized hB (dims := [3, 2]) (validStart_of rfl) none (by simp)
    (by simp [fate, fateOne, dimAt]) (r := 0) (d := 2) (by simp) (by simp) (by simp) (p := 0)
    (k := .h 0 (some 2)) (by simp)).2

/-! ### C38 -/

/-- **C38.** A custom gate on one register whose matrix is unitary and of the register's size acts on
that register as its matrix. -/
theorem C38_custom_gate_acts {N : Numerics R} (hN : N.Sized) {B : Backend R} (hB : B.Lawful)
    {dims : List Nat} {init : List Int} (h : ValidStart (dims.map Int.ofNat) init)
    {out : Option Output} (ho : ∀ o ∈ out, o.base = dims)
    {pre : List (Call R)} (hpre : ∀ k ∈ pre, k.Valid dims) {q : Nat} (hq : q < dims.length)
    {U : Mat R} (hU : U.isUnitary = true) (hr : U.rows = dims[q]) (hc : U.cols = dims[q]) :
    ∃ ψ ψ' : State R,
      script N B (.list (dims.map Int.ofNat)) init out (pre ++ [.measureAll])
        = .ok (listing (format dims out) dims ψ) ∧
      script N B (.list (dims.map Int.ofNat)) init out (pre ++ [.gate U (.int q) none, .measureAll])
        = .ok (listing (format dims out) dims ψ') ∧
      ∀ s, ψ' s = ((List.range dims[q]).map fun j => U.e (s.getD q 0) j * ψ (s.set q j)).sum := by
  have hne : dims ≠ [] := by rintro rfl; simp at hq
  have hd : dims.getD q 0 = dims[q] := by simp [List.getD_eq_getElem?_getD, hq]
  obtain ⟨h1, h2⟩ := one_more hN hB hne h ho hpre (k := .gate U (.int q) none)
    ⟨by unfold InRange; omega, .inl rfl, hU, by rw [Int.toNat_natCast, hd, hr],
      by rw [Int.toNat_natCast, hd, hc]⟩
  refine ⟨_, _, h1, h2, ?_⟩
  intro s
  simp only [meaning, onReg, Int.toNat_natCast, hd]

/-- **C38.** With a matrix that is not unitary or not of the register's size the call is accepted, and
every later `run()` raises, whatever the other calls are. -/
theorem C38_bad_custom_gate_never_runs {N : Numerics R} (hN : N.Sized) {B : Backend R} (hB : B.Lawful)
    {dims : List Nat} {init : List Int} (h : ValidStart (dims.map Int.ofNat) init)
    (out : Option Output) {pre : List (Call R)} (hpre : .measureAll ∉ pre) (post : List (Call R))
    {q : Nat} (hq : q < dims.length) {U : Mat R}
    (hU : U.isUnitary = false ∨ U.rows ≠ dims[q] ∨ U.cols ≠ dims[q]) :
    answer (.list (dims.map Int.ofNat)) init out pre (.gate U (.int q) none) = .ok true ∧
    ∃ e, script N B (.list (dims.map Int.ofNat)) init out (pre ++ .gate U (.int q) none :: post) = .error e := by
  have hne : dims ≠ [] := by rintro rfl; simp at hq
  have hd : dimAt dims q = dims[q] := by
    unfold dimAt
    rw [Int.emod_eq_of_lt (by omega) (by omega)]
    simp [List.getD_eq_getElem?_getD, hq]
  have hb : fate dims (.gate U (.int q) none) = .broken := by
    simp only [fate, fateOne, hd]
    rw [if_neg (by omega), if_neg (by simp), if_neg (by omega), if_neg]
    simp only [Bool.and_eq_true, beq_iff_eq]
    rintro ⟨_, ⟨h1, h2⟩, h3⟩
    rcases hU with h | h | h
    · rw [h] at h1; cases h1
    · exact h h2
    · exact h h3
  exact ⟨answer_ok hne h out hpre rfl (by simp [hb]) (by simp [hb]),
    script_faulty hN hB hne h out hpre hb (.inl rfl) post⟩

/-- **C38.** A custom gate on a list of two registers can never be run, whatever its matrix. -/
theorem C38_two_register_gate_never_runs {N : Numerics R} (hN : N.Sized) {B : Backend R} (hB : B.Lawful)
    {dims : List Nat} {init : List Int} (h : ValidStart (dims.map Int.ofNat) init)
    (out : Option Output) {pre : List (Call R)} (hpre : .measureAll ∉ pre) (post : List (Call R))
    {q r : Nat} (hq : q < dims.length) (hr : r < dims.length) (U : Mat R) :
    answer (.list (dims.map Int.ofNat)) init out pre (.gate U (.list [(q : Int), r]) none) = .ok true ∧
    ∃ e, script N B (.list (dims.map Int.ofNat)) init out
      (pre ++ .gate U (.list [(q : Int), r]) none :: post) = .error e := by
  have hne : dims ≠ [] := by rintro rfl; simp at hq
  have hb : fate dims (.gate U (.list [(q : Int), r]) none) = .broken := by
    simp only [fate]
    rw [if_neg, if_neg, if_neg]
    · by_cases hu : U.isUnitary = false
      · rw [if_pos hu]
      · rw [if_neg hu, if_pos (by simp)]
    · simp only [List.mem_cons, List.not_mem_nil, or_false, exists_eq_or_imp, exists_eq_left]
      omega
    · simp only [List.mem_cons, List.not_mem_nil, or_false, forall_eq_or_imp, forall_eq]
      omega
    · simp only [List.mem_cons, List.not_mem_nil, or_false, exists_eq_or_imp, exists_eq_left, Option.getD_none,
        Nat.not_lt_zero, false_or, reduceCtorEq]
      omega
  exact ⟨answer_ok hne h out hpre rfl (by simp [hb]) (by simp [hb]),
    script_faulty hN hB hne h out hpre hb (.inr (.inl ⟨rfl, by simp⟩)) post⟩

/-- The swap of the outer two levels of a qutrit, as a custom gate. -/
def swap02 : Mat ℤ where
  rows := 3
  cols := 3
  e := fun i j => if i + j = 2 then 1 else 0

example {B : Backend ℤ} (hB : B.Lawful) : ∃ ψ ψ' : State ℤ,
    script sampleN B (.list [2, 3]) [1] none ([.x 1 none 1] ++ [.measureAll])
      = .ok (listing (format [2, 3] none) [2, 3] ψ) ∧
    script sampleN B (.list [2, 3]) [1] none ([.x 1 none 1] ++ [.gate swap02 (.int 1) none, .measureAll])
      = .ok (listing (format [2, 3] none) [2, 3] ψ') ∧
    ∀ s, ψ' s = ((List.range 3).map fun j => swap02.e (s.getD 1 0) j * ψ (s.set 1 j)).sum :=
  C38_custom_gate_acts sampleN_sized hB (dims := [2, 3]) (validStart_of rfl) (by simp)
    (by simp [Call.Valid, InRange, DimOK]) (q := 1) (by simp) (by decide +kernel) rfl rfl

example {B : Backend ℤ} (hB : B.Lawful) (post) :
    ∃ e, script sampleN B (.list [2, 3]) [1] none ([.x 1 none 1] ++ .gate swap02 (.int 0) none :: post) = .error e :=
  (C38_bad_custom_gate_never_runs sampleN_sized hB (dims := [2, 3]) (validStart_of rfl) none (by simp) post
    (q := 0) (by simp) (.inr (.inl (by simp [swap02])))).2

end QuDiet
