import Verif.Lemmas.Layering
import Verif.Props.Measure

/-! # C22, C23, C26: layers, depth and gate counts

`layering n ks` (see `Lemmas/Layering.lean`, first part) is the specification: each call joins the newest
layer when it is an `h`, `x` or `z` on an existing register that no call of that layer occupies, and opens
a new layer otherwise. -/

namespace QuDiet

open Spec

variable {R : Type} [CommRing R]

/-- `op_flow.peek()` after the calls: the list of layers, each a list of operators. -/
def peek (qregs : RegsArg) (init : List Int) (out : Option Output) (ks : List (Call R)) :
    PyM (List (List (GateObj R))) := do
  let c ← Circuit.new (R := R) qregs init out
  .ok (c.calls ks).flow.moments

/-- The calls before `measure_all()` that do not raise. (Whether a call raises does not depend on the
calls before it: `C16_answers_before`.) -/
def accepted (qregs : RegsArg) (init : List Int) (out : Option Output) (ks : List (Call R)) : List (Call R) :=
  (live ks).filter fun k => match answer qregs init out [] k with
    | .ok _ => true
    | .error _ => false

theorem accepted_fresh {q : RegsArg} {init : List Int} {out : Option Output} {c : Circuit R}
    (hc : Circuit.new q init out = .ok c) (ks : List (Call R)) : accepted q init out ks = kept c (live ks) := by
  unfold accepted kept answer
  rw [hc]
  rfl

/-- The circuit after any calls. -/
theorem reach_layers {q : RegsArg} {dims : List Nat} (hpos : 0 < dims.length) (init : List Int)
    (out : Option Output) (ks : List (Call R)) :
    ∃ layers : List (List (GateObj R) × List Unit),
      Unmeasured dims Free ((freshCircuit (R := R) q dims init out).calls (live ks)) (initOps dims init) layers ∧
      List.Forall₂ (Fits2 dims q.toRegs.seq) (layers.map Prod.fst)
        (layering dims.length (kept (freshCircuit q dims init out) (live ks))) ∧
      ((freshCircuit (R := R) q dims init out).calls ks).flow.moments =
        initOps dims init :: layers.map Prod.fst ++
          (if ks.any Call.isMeasureAll then [(List.range dims.length).map GateObj.meas] else []) := by
  have hu0 := fresh_any (R := R) (q := q) hpos init out
  obtain ⟨rest, hks, hrest⟩ := live_append ks
  obtain ⟨layers, hu, hF⟩ := calls_layers (live ks) live_not_measure rfl rfl rfl hu0 rfl hu0 .nil
  refine ⟨layers, hu, hF, ?_⟩
  rcases hrest with ⟨rfl, hno⟩ | ⟨r, rfl⟩
  · rw [if_neg]
    · rw [List.append_nil] at hks
      conv_lhs => rw [hks]
      rw [hu.moments]
      simp
    · intro hmem
      obtain ⟨k, hk, hk'⟩ := List.any_eq_true.1 hmem
      rw [hno k hk] at hk'
      cases hk'
  · rw [if_pos (List.any_eq_true.2 ⟨.measureAll, by rw [hks]; simp, rfl⟩)]
    conv_lhs => rw [hks]
    rw [Circuit.calls_append, Circuit.calls_cons, calls_measured (measureAll_any hu), hu.measure]
    simp only
    rw [hu.moments]

/-! ### C22 -/

/-- **C22.** After any calls, the layers are: the preparation of the registers; the layers of the accepted
gate calls, placed as `layering` says, each layer showing exactly the gates of its calls; and the
measurements, if `measure_all()` was called. -/
theorem C22_layers {q : RegsArg} (hn : q.dims ≠ []) {init : List Int} {out : Option Output}
    (ks : List (Call R)) {ls : List (List (GateObj R))} (h : peek q init out ks = .ok ls) :
    ∃ prep gates, ls = prep :: gates ++
        (if ks.any Call.isMeasureAll then [(List.range q.dims.length).map GateObj.meas] else []) ∧
      prep.length = q.dims.length ∧ (∀ g ∈ prep, g.isInit = true) ∧
      List.Forall₂ (Shows q.dims.length) gates (layering q.dims.length (accepted q init out ks)) := by
  unfold peek at h
  cases hc : Circuit.new (R := R) q init out with
  | error e => rw [hc] at h; cases h
  | ok c =>
    rw [hc] at h
    injection h with h
    subst h
    rw [accepted_fresh hc]
    obtain ⟨dims, hd, hv, rfl⟩ := new_fresh hc
    have hlen : q.dims.length = dims.length := by rw [hd]; simp
    have hpos : 0 < dims.length := by rw [← hlen]; exact List.length_pos_of_ne_nil hn
    obtain ⟨layers, hu, hF, hm⟩ := reach_layers (R := R) (q := q) hpos init out ks
    rw [hlen]
    refine ⟨_, _, hm, by simp [initOps], fun g hg => (initOps_isInit dims init g hg).1, ?_⟩
    exact hF.imp fun _ _ h => h.shows

theorem depth_eq {q : RegsArg} {dims : List Nat} (hpos : 0 < dims.length) (init : List Int)
    (out : Option Output) (ks : List (Call R)) :
    ((freshCircuit (R := R) q dims init out).calls ks).depth =
      (layering dims.length (kept (freshCircuit (R := R) q dims init out) (live ks))).length := by
  obtain ⟨layers, hu, hF, hm⟩ := reach_layers (R := R) (q := q) hpos init out ks
  have hlen := hF.length_eq
  rw [List.length_map] at hlen
  rw [← hlen]
  unfold Circuit.depth
  rw [hm]
  by_cases hk : ks.any Call.isMeasureAll = true
  · rw [if_pos hk]
    have hlast : (initOps (R := R) dims init :: layers.map Prod.fst ++
        [(List.range dims.length).map GateObj.meas]).getLast? = some ((List.range dims.length).map GateObj.meas) :=
      List.getLast?_concat
    rw [hlast]
    have hany : ((List.range dims.length).map (GateObj.meas (R := R))).any (·.isMeas) = true := by
      rw [List.any_eq_true]
      exact ⟨.meas 0, List.mem_map.2 ⟨0, List.mem_range.2 hpos, rfl⟩, rfl⟩
    simp only [Option.getD_some, hany, if_true, List.length_append, List.length_cons, List.length_map,
      List.length_nil]
    omega
  · rw [if_neg hk, List.append_nil]
    have hno : ((initOps (R := R) dims init :: layers.map Prod.fst).getLast?.getD []).any (·.isMeas) = false := by
      rw [List.any_eq_false]
      intro g hg
      have hg' : ∃ m ∈ initOps (R := R) dims init :: layers.map Prod.fst, g ∈ m := by
        cases hl : (initOps (R := R) dims init :: layers.map Prod.fst).getLast? with
        | none => simp at hl
        | some m =>
          rw [hl] at hg
          exact ⟨m, List.mem_of_getLast? hl, hg⟩
      obtain ⟨m, hmem, hgm⟩ := hg'
      rcases List.mem_cons.1 hmem with rfl | hmem
      · simp [(initOps_isInit dims init g hgm).2]
      · obtain ⟨l, hl, rfl⟩ := List.mem_map.1 hmem
        simp [hu.noMeas l hl g hgm]
    rw [hno]
    simp

/-- **C22.** `get_circuit_config()['depth']` is the number of layers of gates, measured or not. -/
theorem C22_depth {q : RegsArg} (hn : q.dims ≠ []) {init : List Int} {out : Option Output}
    (ks : List (Call R)) {w : Width} {d : Int} {x : Info} (h : reports q init out ks = .ok (w, d, x)) :
    d = (layering q.dims.length (accepted q init out ks)).length := by
  unfold reports at h
  cases hc : Circuit.new (R := R) q init out with
  | error e => rw [hc] at h; cases h
  | ok c =>
    rw [hc] at h
    injection h with h
    injection h with h1 h2
    injection h2 with h2 h3
    subst h2
    rw [accepted_fresh hc]
    obtain ⟨dims, hd, hv, rfl⟩ := new_fresh hc
    have hlen : q.dims.length = dims.length := by rw [hd]; simp
    have hpos : 0 < dims.length := by rw [← hlen]; exact List.length_pos_of_ne_nil hn
    rw [hlen]
    exact depth_eq hpos init out ks

omit [CommRing R] in
theorem place_length (n : Nat) (L : List (List (Call R))) (k : Call R) :
    L.length ≤ (place n L k).length ∧ (place n L k).length ≤ L.length + 1 ∧
      (k.isHXZ = false → (place n L k).length = L.length + 1) := by
  unfold place
  cases hl : L.getLast? with
  | none => rw [List.getLast?_eq_none_iff.1 hl]; simp
  | some l =>
    have : 0 < L.length := by
      apply List.length_pos_of_ne_nil
      rintro rfl
      simp at hl
    simp only
    split
    · rename_i hj
      refine ⟨by simp; omega, by simp, fun h => ?_⟩
      rw [hj.1] at h
      cases h
    · simp

omit [CommRing R] in
theorem foldl_place_length (n : Nat) (ks : List (Call R)) (L : List (List (Call R))) :
    L.length + (ks.filter fun k => !k.isHXZ).length ≤ (ks.foldl (place n) L).length ∧
      (ks.foldl (place n) L).length ≤ L.length + ks.length := by
  induction ks generalizing L with
  | nil => simp
  | cons k ks ih =>
    obtain ⟨h1, h2, h3⟩ := place_length n L k
    obtain ⟨h4, h5⟩ := ih (place n L k)
    rw [List.foldl_cons, List.length_cons]
    cases hk : k.isHXZ with
    | true =>
      rw [List.filter_cons_of_neg (by simp [hk])]
      omega
    | false =>
      rw [List.filter_cons_of_pos (by simp [hk]), List.length_cons]
      have := h3 hk
      omega

/-- **C22.** The depth is at most the number of accepted gate calls and at least the number of accepted
calls of `cx`, `toffoli` and `gate`. -/
theorem C22_depth_bounds {q : RegsArg} (hn : q.dims ≠ []) {init : List Int} {out : Option Output}
    (ks : List (Call R)) {w : Width} {d : Int} {x : Info} (h : reports q init out ks = .ok (w, d, x)) :
    (((accepted q init out ks).filter fun k => !k.isHXZ).length : Int) ≤ d ∧
      d ≤ (accepted q init out ks).length := by
  rw [C22_depth hn ks h]
  have := foldl_place_length q.dims.length (accepted q init out ks) []
  unfold layering
  simp only [List.length_nil] at this
  omega

omit [CommRing R] in
theorem live_snoc (ks : List (Call R)) (k : Call R) :
    live (ks ++ [k]) = live ks ∨ live (ks ++ [k]) = live ks ++ [k] := by
  induction ks with
  | nil =>
    cases hk : k.isMeasureAll with
    | true => left; simp [live, hk]
    | false => right; simp [live, hk]
  | cons a ks ih =>
    unfold live at ih ⊢
    cases ha : a.isMeasureAll with
    | true => left; simp [ha]
    | false =>
      rw [List.cons_append, List.takeWhile_cons_of_pos (by simp [ha]), List.takeWhile_cons_of_pos (by simp [ha])]
      rcases ih with ih | ih <;> rw [ih]
      · exact .inl rfl
      · exact .inr rfl

/-- **C22.** The depth never decreases, and one call increases it by at most one. -/
theorem C22_depth_monotone {q : RegsArg} (hn : q.dims ≠ []) {init : List Int} {out : Option Output}
    (ks : List (Call R)) (k : Call R) {w w' : Width} {d d' : Int} {x x' : Info}
    (h : reports q init out ks = .ok (w, d, x)) (h' : reports q init out (ks ++ [k]) = .ok (w', d', x')) :
    d ≤ d' ∧ d' ≤ d + 1 := by
  rw [C22_depth hn ks h, C22_depth hn _ h']
  have hl : live (ks ++ [k]) = live ks ∨ live (ks ++ [k]) = live ks ++ [k] := live_snoc ks k
  have key : accepted q init out (ks ++ [k]) = accepted q init out ks ∨
      accepted q init out (ks ++ [k]) = accepted q init out ks ++ [k] := by
    unfold accepted
    rcases hl with hl | hl
    · exact .inl (by rw [hl])
    · rw [hl, List.filter_append]
      cases hk : answer q init out [] k with
      | ok b => exact .inr (by simp [hk])
      | error e => exact .inl (by simp [hk])
  rcases key with key | key
  · rw [key]; omega
  · rw [key]
    unfold layering
    rw [List.foldl_append]
    have := place_length q.dims.length ((accepted q init out ks).foldl (place q.dims.length) []) k
    simp only [List.foldl_cons, List.foldl_nil]
    omega

/-! ### C26 -/

/-- The operator covers register `r`: it lies between the lowest and the highest register it names. -/
def covers (g : GateObj R) (r : Nat) : Prop :=
  (∃ a ∈ g.regs, a ≤ (r : Int)) ∧ ∃ b ∈ g.regs, (r : Int) ≤ b

/-- Reading a layer from left to right, each operator covers a run of registers right after those of the
operators before it, starting with register 0 and ending with register `n - 1`: `cuts` are the ends. -/
def Tiles (n : Nat) (m : List (GateObj R)) : Prop :=
  ∃ cuts : List Nat, cuts.length = m.length + 1 ∧ cuts.Pairwise (· < ·) ∧ cuts.head? = some 0 ∧
    cuts.getLast? = some n ∧
    ∀ i (h : i < m.length) (r : Nat), r < n → (covers m[i] r ↔ cuts.getD i 0 ≤ r ∧ r < cuts.getD (i + 1) 0)

theorem tiles_layer {n off : Nat} {m : List (GateObj R)} {bs : List Unit}
    (h : Layer n Free off m bs) :
    ∃ cuts : List Nat, cuts.length = m.length + 1 ∧ cuts.Pairwise (· < ·) ∧ cuts.head? = some off ∧
    cuts.getLast? = some n ∧
    ∀ i (h : i < m.length) (r : Nat), r < n → (covers m[i] r ↔ cuts.getD i 0 ≤ r ∧ r < cuts.getD (i + 1) 0) := by
  induction h with
  | nil => exact ⟨[n], by simp, by simp, rfl, rfl, by intro i h; simp at h⟩
  | @cons off k g b m bs hk hle hinit hcov hP rest ih =>
    obtain ⟨cuts, h1, h2, h3, h4, h5⟩ := ih
    cases cuts with
    | nil => simp at h3
    | cons a cuts =>
      obtain rfl : a = off + k := by simpa using h3
      refine ⟨off :: (off + k) :: cuts, by simpa using h1, ?_, rfl, ?_, ?_⟩
      · rw [List.pairwise_cons]
        refine ⟨?_, h2⟩
        intro x hx
        rcases List.mem_cons.1 hx with rfl | hx
        · omega
        · have := (List.pairwise_cons.1 h2).1 x hx
          omega
      · rw [List.getLast?_cons_cons]
        exact h4
      · intro i hi r hr
        cases i with
        | zero =>
          simp only [List.getElem_cons_zero, List.getD_cons_zero, List.getD_cons_succ]
          exact (hcov r hr).symm
        | succ i =>
          simp only [List.getElem_cons_succ, List.getD_cons_succ]
          exact h5 i (by simpa using hi) r hr

theorem tiles_single {n : Nat} {f : Nat → GateObj R} (hf : ∀ i, (f i).regs = [(i : Int)]) :
    Tiles n ((List.range n).map f) := by
  refine ⟨List.range (n + 1), by simp, List.pairwise_lt_range,
    by simp [List.range_eq_range', List.range'_succ], ?_, ?_⟩
  · rw [List.range_succ, List.getLast?_concat]
  intro i hi r hr
  have hi' : i < n := by simpa using hi
  have e1 : (List.range (n + 1)).getD i 0 = i := by
    simp [List.getD_eq_getElem?_getD, List.getElem?_range (show i < n + 1 by omega)]
  have e2 : (List.range (n + 1)).getD (i + 1) 0 = i + 1 := by
    simp [List.getD_eq_getElem?_getD, List.getElem?_range (show i + 1 < n + 1 by omega)]
  rw [e1, e2]
  simp only [List.getElem_map, List.getElem_range, covers, hf, List.mem_singleton, exists_eq_left]
  omega

/-- **C26.** After any calls whatsoever, every layer covers every register exactly once: its operators,
read from left to right, occupy registers `0` to `n - 1` without gap or overlap. -/
theorem C26_layers_tile {q : RegsArg} (hn : q.dims ≠ []) {init : List Int} {out : Option Output}
    (ks : List (Call R)) {ls : List (List (GateObj R))} (h : peek q init out ks = .ok ls) :
    ∀ m ∈ ls, Tiles q.dims.length m := by
  unfold peek at h
  cases hc : Circuit.new (R := R) q init out with
  | error e => rw [hc] at h; cases h
  | ok c =>
    rw [hc] at h
    injection h with h
    subst h
    obtain ⟨dims, hd, hv, rfl⟩ := new_fresh hc
    have hlen : q.dims.length = dims.length := by rw [hd]; simp
    have hpos : 0 < dims.length := by rw [← hlen]; exact List.length_pos_of_ne_nil hn
    obtain ⟨layers, hu, hF, hm⟩ := reach_layers (R := R) (q := q) hpos init out ks
    rw [hlen, hm]
    intro m hmem
    rw [List.cons_append, List.mem_cons, List.mem_append] at hmem
    rcases hmem with rfl | hmem | hmem
    · exact tiles_single fun i => rfl
    · obtain ⟨l, hl, rfl⟩ := List.mem_map.1 hmem
      exact tiles_layer (hu.lay l hl)
    · split at hmem
      · rw [List.mem_singleton] at hmem
        subst hmem
        exact tiles_single fun i => rfl
      · cases hmem

/-! ### C23 -/

theorem perm_count {α β : Type} [DecidableEq β] {l : List α} {l' : List β} {f : α → β} (h : (l.map f).Perm l')
    (b : β) : (l.filter fun a => f a = b).length = (l'.filter fun x => x = b).length := by
  rw [← (h.filter _).length_eq, List.filter_map, List.length_map]
  rfl

/-- Number of accepted calls of a kind that occupy at least one register. -/
def countCalls (n : Nat) (ks : List (Call R)) (k : Kind) : Nat :=
  (ks.filter fun c => c.kind = some k ∧ ∃ r < n, c.occupies r).length

/-- The kind of a gate. -/
def Drawn.kind : Drawn → Kind
  | .h _ => .h
  | .x .. => .x
  | .z _ => .z
  | .cx .. => .cx
  | .toffoli .. => .toffoli
  | .custom _ => .arbitary

theorem kind_drawn (g : GateObj R) : g.drawn.map Drawn.kind = g.kind := by cases g <;> rfl

theorem kind_drawn' (k : Call R) : k.drawn.map Drawn.kind = k.kind := by cases k <;> rfl

theorem shows_count {n : Nat} {m : List (GateObj R)} {layer : List (Call R)} (h : Shows n m layer) (k : Kind) :
    (m.filter fun g => g.kind = some k).length = countCalls n layer k := by
  have h1 : (m.filter fun g => g.kind = some k) = (m.filter fun g => !g.isIdent).filter fun g => g.kind = some k := by
    rw [List.filter_filter]
    apply List.filter_congr
    intro g _
    cases g <;> simp [GateObj.kind, GateObj.isIdent]
  have h2 : (m.filter fun g => !g.isIdent).map (fun g => g.kind) |>.Perm
      ((layer.filter fun k => ∃ r < n, k.occupies r).map fun k => k.kind) := by
    have := h.map fun d => d.map Drawn.kind
    simpa [List.map_map, Function.comp_def, kind_drawn, kind_drawn'] using this
  rw [h1, perm_count h2, List.filter_map, List.length_map, List.filter_filter]
  unfold countCalls
  congr 1
  apply List.filter_congr
  intro c _
  simp

theorem countCalls_append (n : Nat) (a b : List (Call R)) (k : Kind) :
    countCalls n (a ++ b) k = countCalls n a k + countCalls n b k := by
  simp [countCalls]

theorem place_flatten (n : Nat) (L : List (List (Call R))) (k : Call R) :
    (place n L k).flatten = L.flatten ++ [k] := by
  unfold place
  cases hl : L.getLast? with
  | none => rw [List.getLast?_eq_none_iff.1 hl]; rfl
  | some l =>
    simp only
    split
    · obtain ⟨L0, rfl⟩ : ∃ L0, L = L0 ++ [l] := ⟨L.dropLast, (List.dropLast_append_getLast? l hl).symm⟩
      simp
    · simp

theorem layering_flatten (n : Nat) (ks : List (Call R)) : (layering n ks).flatten = ks := by
  have : ∀ L, (ks.foldl (place n) L).flatten = L.flatten ++ ks := by
    induction ks with
    | nil => simp
    | cons k ks ih => intro L; rw [List.foldl_cons, ih, place_flatten]; simp
  have h := this []
  rw [List.flatten_nil, List.nil_append] at h
  exact h

theorem count_layers {n : Nat} {ms : List (List (GateObj R))} {L : List (List (Call R))}
    (h : List.Forall₂ (Shows n) ms L) (k : Kind) :
    (ms.flatten.filter fun g => g.kind = some k).length = countCalls n L.flatten k := by
  induction h with
  | nil => rfl
  | cons h _ ih =>
    rw [List.flatten_cons, List.flatten_cons, List.filter_append, List.length_append, ih, shows_count h,
      countCalls_append]

/-- **C23.** `get_circuit_info()` reports, in the order h, x, z, cx, toffoli, custom, for each kind of gate
the number of accepted calls before `measure_all()` that occupy at least one existing register, leaving out
the kinds that do not occur; `gate_count` is the sum. -/
theorem C23_counts {q : RegsArg} (hn : q.dims ≠ []) {init : List Int} {out : Option Output}
    (ks : List (Call R)) {w : Width} {d : Int} {x : Info} (h : reports q init out ks = .ok (w, d, x)) :
    x.details = ([Kind.h, .x, .z, .cx, .toffoli, .arbitary].map fun k =>
        (k, countCalls q.dims.length (accepted q init out ks) k)).filter (fun p => p.2 ≠ 0) ∧
    x.gateCount = ([Kind.h, .x, .z, .cx, .toffoli, .arbitary].map fun k =>
        countCalls q.dims.length (accepted q init out ks) k).sum := by
  unfold reports at h
  cases hc : Circuit.new (R := R) q init out with
  | error e => rw [hc] at h; cases h
  | ok c =>
    rw [hc] at h
    injection h with h
    injection h with h1 h2
    injection h2 with h2 h3
    subst h3
    rw [accepted_fresh hc]
    obtain ⟨dims, hd, hv, rfl⟩ := new_fresh hc
    have hlen : q.dims.length = dims.length := by rw [hd]; simp
    have hpos : 0 < dims.length := by rw [← hlen]; exact List.length_pos_of_ne_nil hn
    obtain ⟨layers, hu, hF, hm⟩ := reach_layers (R := R) (q := q) hpos init out ks
    rw [hlen]
    have hcount : ∀ k, (((freshCircuit (R := R) q dims init out).calls ks).flow.moments.flatten.filter
        fun g => g.kind = some k).length =
        countCalls dims.length (kept (freshCircuit (R := R) q dims init out) (live ks)) k := by
      intro k
      rw [hm, List.cons_append, List.flatten_cons, List.flatten_append, List.filter_append, List.filter_append]
      have e1 : (initOps (R := R) dims init).filter (fun g => g.kind = some k) = [] := by
        rw [List.filter_eq_nil_iff]
        intro g hg
        obtain ⟨i, _, rfl⟩ := List.mem_map.1 hg
        simp [GateObj.kind]
      have e2 : (if ks.any Call.isMeasureAll then [(List.range dims.length).map (GateObj.meas (R := R))] else []).flatten.filter
          (fun g => g.kind = some k) = [] := by
        rw [List.filter_eq_nil_iff]
        intro g hg
        split at hg
        · simp at hg
          obtain ⟨i, _, rfl⟩ := hg
          simp [GateObj.kind]
        · simp at hg
      rw [e1, e2, List.append_nil, List.nil_append, count_layers (hF.imp fun _ _ h => h.shows), layering_flatten]
    have hsum : ∀ l : List (Kind × Nat), ((l.filter fun p => p.2 ≠ 0).map (·.2)).sum = (l.map (·.2)).sum := by
      intro l
      induction l with
      | nil => rfl
      | cons p l ih =>
        by_cases hp : p.2 = 0
        · rw [List.filter_cons_of_neg (by simp [hp]), ih]
          simp [hp]
        · rw [List.filter_cons_of_pos (by simp [hp]), List.map_cons, List.sum_cons, ih, List.map_cons, List.sum_cons]
    unfold Circuit.info
    simp only [hcount, Kind.order]
    refine ⟨trivial, ?_⟩
    rw [hsum]
    rfl

theorem infoDepth_meas (n qudit : Nat) (hq : 0 < qudit) (d : Int) :
    infoDepthMoment qudit d ((List.range n).map (GateObj.meas (R := R))) =
      if qudit ≤ n then d - 1 else d := by
  unfold infoDepthMoment
  have key : ∀ n, ((List.range n).map (GateObj.meas (R := R))).foldl (fun (st : Nat × Int) g =>
      if g.isMeas then (st.1 + 1, if st.1 + 1 = qudit then st.2 - 1 else st.2) else st) (0, d) =
        (n, if qudit ≤ n then d - 1 else d) := by
    intro n
    induction n with
    | zero => simp; omega
    | succ n ih =>
      rw [List.range_succ, List.map_append, List.foldl_append, ih]
      simp only [List.map_cons, List.map_nil, List.foldl_cons, List.foldl_nil, GateObj.isMeas, if_true]
      congr 1
      by_cases h1 : qudit ≤ n
      · rw [if_pos h1, if_neg (by omega), if_pos (by omega)]
      · rw [if_neg h1]
        by_cases h2 : n + 1 = qudit
        · rw [if_pos h2, if_pos (by omega)]
        · rw [if_neg h2, if_neg (by omega)]
  rw [key]

theorem infoDepth_plain (qudit : Nat) (d : Int) {m : List (GateObj R)} (h : ∀ g ∈ m, g.isMeas = false) :
    infoDepthMoment qudit d m = d := by
  unfold infoDepthMoment
  have key : ∀ (m : List (GateObj R)) (st : Nat × Int), (∀ g ∈ m, g.isMeas = false) → m.foldl (fun (st : Nat × Int) g =>
      if g.isMeas then (st.1 + 1, if st.1 + 1 = qudit then st.2 - 1 else st.2) else st) st = st := by
    intro m
    induction m with
    | nil => intro st _; rfl
    | cons g m ih =>
      intro st h
      rw [List.foldl_cons, h g (by simp), if_neg (by simp)]
      exact ih st fun g hg => h g (by simp [hg])
  rw [key m _ h]

theorem info_depth {q : RegsArg} {dims : List Nat} (hpos : 0 < dims.length) (init : List Int)
    (out : Option Output) (ks : List (Call R)) (hq : 0 < q.toRegs.seq.length) :
    let c := (freshCircuit (R := R) q dims init out).calls ks
    c.info.qudit = q.toRegs.seq.length ∧
    c.info.depth = c.depth + if ks.any Call.isMeasureAll ∧ dims.length < q.toRegs.seq.length then 1 else 0 := by
  intro c
  have hqr : c.qregs = q.toRegs := by
    obtain ⟨⟨f, hf⟩, _⟩ := reach_any (R := R) (q := q) hpos init out ks
    simp only [c]
    rw [hf]
    rfl
  refine ⟨by simp only [Circuit.info, hqr], ?_⟩
  simp only [c]
  rw [depth_eq hpos init out ks]
  obtain ⟨layers, hu, hF, hm⟩ := reach_layers (R := R) (q := q) hpos init out ks
  have hlen := hF.length_eq
  rw [List.length_map] at hlen
  rw [← hlen]
  unfold Circuit.info
  simp only
  rw [hqr, hm]
  have key : ∀ (ms : List (List (GateObj R))) (d : Int), (∀ m ∈ ms, ∀ g ∈ m, g.isMeas = false) →
      ms.foldl (infoDepthMoment q.toRegs.seq.length) d = d := by
    intro ms
    induction ms with
    | nil => intro d _; rfl
    | cons m ms ih =>
      intro d h
      rw [List.foldl_cons, infoDepth_plain _ _ (h m (by simp))]
      exact ih d fun m hm => h m (by simp [hm])
  rw [List.foldl_append, key (initOps dims init :: layers.map Prod.fst)]
  · by_cases hk : ks.any Call.isMeasureAll = true
    · rw [if_pos hk]
      simp only [List.foldl_cons, List.foldl_nil]
      rw [infoDepth_meas _ _ hq]
      simp only [List.length_append, List.length_cons, List.length_map, List.length_nil]
      by_cases h2 : q.toRegs.seq.length ≤ dims.length
      · rw [if_pos h2, if_neg (by omega)]
        omega
      · rw [if_neg h2, if_pos ⟨hk, by omega⟩]
        omega
    · rw [if_neg hk, if_neg (by tauto)]
      simp
  · intro m hmem g hg
    rcases List.mem_cons.1 hmem with rfl | hmem
    · exact (initOps_isInit dims init g hg).2
    · obtain ⟨l, hl, rfl⟩ := List.mem_map.1 hmem
      exact hu.noMeas l hl g hg

/-- **C23.** For registers given as a list, `get_circuit_info()` reports the depth of `get_circuit_config()`
and the number of registers. -/
theorem C23_depth_agrees {ds : List Int} (hn : ds ≠ []) {init : List Int} {out : Option Output}
    (ks : List (Call R)) {w : Width} {d : Int} {x : Info} (h : reports (.list ds) init out ks = .ok (w, d, x)) :
    x.depth = d ∧ x.qudit = ds.length ∧ w = .num ds.length := by
  unfold reports at h
  cases hc : Circuit.new (R := R) (.list ds) init out with
  | error e => rw [hc] at h; cases h
  | ok c =>
    rw [hc] at h
    injection h with h
    injection h with h1 h2
    injection h2 with h2 h3
    obtain ⟨dims, hd, hv, rfl⟩ := new_fresh hc
    have hlen : ds.length = dims.length := by
      have := congrArg List.length hd
      simpa [RegsArg.dims] using this
    have hpos : 0 < dims.length := by rw [← hlen]; exact List.length_pos_of_ne_nil hn
    have hs : (RegsArg.list ds).toRegs.seq.length = ds.length := by simp [RegsArg.toRegs, Regs.seq]
    obtain ⟨h4, h5⟩ := info_depth (R := R) (q := .list ds) hpos init out ks (by omega)
    rw [if_neg (by omega)] at h5
    rw [h3] at h4 h5
    refine ⟨by omega, by rw [h4, hs], ?_⟩
    rw [← h1]
    obtain ⟨⟨f, hf⟩, _⟩ := reach_any (R := R) (q := .list ds) hpos init out ks
    rw [hf]
    simp [Circuit.width, freshCircuit, RegsArg.toRegs]

/-- **C23 (the pair form).** For registers given as a pair `(n, d)` the reported number of registers is 2 and
the reported width is the pair, whatever `n`; the two depths agree except for a measured circuit on one
register, where `get_circuit_info()` is one too high. -/
theorem C23_pair_reports {n : Nat} {r : Int} (hn : 0 < n) {init : List Int} {out : Option Output}
    (ks : List (Call R)) {w : Width} {d : Int} {x : Info} (h : reports (.tuple n r) init out ks = .ok (w, d, x)) :
    x.depth = (if n = 1 ∧ ks.any Call.isMeasureAll then d + 1 else d) ∧ x.qudit = 2 ∧ w = .pair n r.toNat := by
  unfold reports at h
  cases hc : Circuit.new (R := R) (.tuple n r) init out with
  | error e => rw [hc] at h; cases h
  | ok c =>
    rw [hc] at h
    injection h with h
    injection h with h1 h2
    injection h2 with h2 h3
    obtain ⟨dims, hd, hv, rfl⟩ := new_fresh hc
    have hlen : n = dims.length := by
      have := congrArg List.length hd
      simpa [RegsArg.dims] using this
    have hpos : 0 < dims.length := by omega
    have hs : (RegsArg.tuple n r).toRegs.seq.length = 2 := rfl
    obtain ⟨h4, h5⟩ := info_depth (R := R) (q := .tuple n r) hpos init out ks (by omega)
    rw [h3] at h4 h5
    refine ⟨?_, by rw [h4, hs], ?_⟩
    · rw [h5, hs, h2]
      by_cases hk : n = 1 ∧ ks.any Call.isMeasureAll = true
      · rw [if_pos ⟨hk.2, by omega⟩, if_pos hk]
      · rw [if_neg (fun hh => hk ⟨by omega, hh.1⟩), if_neg hk]
        omega
    · rw [← h1]
      obtain ⟨⟨f, hf⟩, _⟩ := reach_any (R := R) (q := .tuple n r) hpos init out ks
      rw [hf]
      simp [Circuit.width, freshCircuit, RegsArg.toRegs]

/-! ### A circuit that meets the hypotheses -/

/-- Packing, a rejected call, a silently dropped one, and calls after `measure_all()`. -/
def sampleCalls : List (Call ℤ) :=
  [.x 0 none 1, .x 2 none 2, .x 0 none 1, .cx 0 1 1, .x 2 none 1, .x 7 none 1, .x (-1) none 1, .x 1 none 1,
    .measureAll, .x 0 none 1]

/-- Four layers of gates, six gates counted (the call on register -1 occupies none). -/
example : reports (.list [2, 2, 3]) [] none sampleCalls =
    .ok (.num 3, 4, ⟨4, 6, [(.x, 5), (.cx, 1)], 3⟩) := by rfl

example : layering 3 (accepted (.list [2, 2, 3]) [] none sampleCalls) =
    [[.x 0 none 1, .x 2 none 2], [.x 0 none 1], [.cx 0 1 1, .x 2 none 1], [.x (-1) none 1, .x 1 none 1]] := by rfl

example : ∃ ls, peek (.list [2, 2, 3]) [] none sampleCalls = .ok ls ∧ ls.length = 6 ∧ ∀ m ∈ ls, Tiles 3 m :=
  ⟨_, rfl, rfl, C26_layers_tile (q := .list [2, 2, 3]) (init := []) (out := none) (by decide) sampleCalls rfl⟩

example := C22_layers (R := ℤ) (q := .list [2, 2, 3]) (init := []) (out := none) (by decide) sampleCalls rfl
example := C22_depth_bounds (R := ℤ) (q := .list [2, 2, 3]) (init := []) (out := none) (by decide) sampleCalls rfl
example := C22_depth_monotone (R := ℤ) (q := .list [2, 2, 3]) (init := []) (out := none) (by decide) sampleCalls
  (.x 0 none 1) rfl rfl
example := C23_counts (R := ℤ) (q := .list [2, 2, 3]) (init := []) (out := none) (by decide) sampleCalls rfl
example := C23_depth_agrees (R := ℤ) (ds := [2, 2, 3]) (init := []) (out := none) (by decide) sampleCalls rfl
example := C23_pair_reports (R := ℤ) (n := 1) (r := 3) (init := []) (out := none) (by decide)
  [.x 0 none 1, .measureAll] rfl

end QuDiet
