import Verif.Props.Share
import Verif.Lemmas.Moments
import Verif.Lemmas.Measuring
import Verif.Props.Measuring

/-!
# C67: what goes wrong with shared layers

A layer with idle registers that is handed over several times stays one object. A gate that a circuit puts into
it appears in all circuits that hold it, and as often as they hold it.
-/

namespace QuDiet
open Spec

variable {R : Type} [CommRing R] [StarRing R] [DecidableEq R] [UnitaryCheck R]

/-! ### Single gates -/

/-- The gate object of a call of `h`, `x` or `z` on register `q`. -/
structure SingleGate (dims : List Nat) (q : Nat) (k : Call R) (g : GateObj R) : Prop where
  hxz : g.isHXZ = true
  acting : g.actingOn = .ok (.int q)
  noMeas : g.isMeas = false
  noIdent : g.isIdent = false
  value : ∀ c : Circuit R, c.regLength = dims.length → c.regDims = dims → c.callM k = c.addMoment (.int q) g
  obj : ∀ (w : World R) (i : Nat) (c : Circuit R), w.view i = some c → c.regLength = dims.length →
    c.regDims = dims → callObj i k w = addMomentObj i (.int q) g w

omit [StarRing R] [DecidableEq R] [UnitaryCheck R] in
theorem single_gate {dims : List Nat} {q : Nat} (hq : q < dims.length) {p : Int} {k : Call R}
    (hk : k ∈ ([.h q none, .x q none p, .z q none] : List (Call R))) : ∃ g, SingleGate dims q k g := by
  have hv : ∀ c : Circuit R, c.regLength = dims.length → c.validate q none = .ok () := by
    intro c h
    unfold Circuit.validate
    rw [h, if_neg (by omega)]
  have hg : ∀ c : Circuit R, c.regDims = dims → c.gateDims q none = .ok dims[q] := by
    intro c h
    unfold Circuit.gateDims
    rw [h]
    simp [pyGet, pyIndex, hq]
  simp only [List.mem_cons, List.not_mem_nil, or_false] at hk
  rcases hk with rfl | rfl | rfl
  · refine ⟨.h q dims[q], rfl, rfl, rfl, rfl, fun c h1 h2 => ?_, fun w i c hc h1 h2 => ?_⟩
    · simp only [Circuit.callM, hv c h1, hg c h2, ok_bind]
    · simp only [callObj, act_bind, look, hc, hv c h1, hg c h2]
  · refine ⟨.x q dims[q] p, rfl, rfl, rfl, rfl, fun c h1 h2 => ?_, fun w i c hc h1 h2 => ?_⟩
    · simp only [Circuit.callM, hv c h1, hg c h2, ok_bind]
    · simp only [callObj, act_bind, look, hc, hv c h1, hg c h2]
  · refine ⟨.z q dims[q], rfl, rfl, rfl, rfl, fun c h1 h2 => ?_, fun w i c hc h1 h2 => ?_⟩
    · simp only [Circuit.callM, hv c h1, hg c h2, ok_bind]
    · simp only [callObj, act_bind, look, hc, hv c h1, hg c h2]

/-- The layer with `g` on register `q` and identities elsewhere. -/
def withGate (dims : List Nat) (q : Nat) (g : GateObj R) : List (GateObj R) :=
  idle dims 0 q ++ g :: idle dims (q + 1) dims.length

omit [CommRing R] [StarRing R] [DecidableEq R] [UnitaryCheck R] in
theorem layout_withGate {dims : List Nat} {q : Nat} (hq : q < dims.length) (g : GateObj R) :
    layout dims q q g = withGate dims q g := by
  unfold layout withGate
  simp only []
  have e1 : min dims.length (q : Int).toNat = q := by omega
  have e2 : min dims.length ((q : Int) + 1).toNat = q + 1 := by omega
  rw [e1, e2, if_pos (by omega)]
  rfl

omit [CommRing R] [StarRing R] [DecidableEq R] [UnitaryCheck R] in
theorem idle_split (dims : List Nat) {q n : Nat} (hq : q < n) :
    idle (R := R) dims 0 n = idle dims 0 q ++ .ident q (dims.getD q 0) :: idle dims (q + 1) n := by
  unfold idle
  rw [show n - 0 = q + (n - q) by omega, ← List.range'_append_1, List.map_append]
  congr 1
  rw [show n - q = (n - (q + 1)) + 1 by omega, List.range'_succ]
  simp

omit [CommRing R] [StarRing R] [DecidableEq R] [UnitaryCheck R] in
theorem mem_idle {dims : List Nat} {a b : Nat} {g : GateObj R} (h : g ∈ idle dims a b) :
    ∃ r : Nat, g = .ident r (dims.getD r 0) ∧ a ≤ r ∧ r < b := by
  unfold idle at h
  obtain ⟨r, h1, rfl⟩ := List.mem_map.1 h
  rw [List.mem_range'_1] at h1
  exact ⟨r, rfl, by omega, by omega⟩

omit [CommRing R] [StarRing R] [DecidableEq R] [UnitaryCheck R] in
theorem getQreg_idle (dims : List Nat) (q : Nat) (a : Nat) (ha : a ≤ q) (g : GateObj R) (rest : List (GateObj R))
    (hg : g.actingOn = .ok (.int q)) (n : Nat) :
    getQregMoment q (idle dims a q ++ g :: rest) n = .ok (some (g, n + (q - a))) := by
  obtain ⟨k, rfl⟩ : ∃ k, q = a + k := ⟨q - a, by omega⟩
  induction k generalizing a n with
  | zero =>
    have : idle (R := R) dims a (a + 0) = [] := by simp [idle]
    rw [this, List.nil_append, getQregMoment, hg]
    simp [bind, Except.bind]
  | succ k ih =>
    have : idle (R := R) dims a (a + (k + 1)) = .ident a (dims.getD a 0) :: idle dims (a + 1) (a + (k + 1)) := by
      unfold idle
      rw [show a + (k + 1) - a = k + 1 by omega, show a + (k + 1) - (a + 1) = k by omega, List.range'_succ]
      rfl
    rw [this, List.cons_append, getQregMoment]
    simp only [GateObj.actingOn, bind, Except.bind]
    rw [if_neg (by omega)]
    have e : a + (k + 1) = (a + 1) + k := by omega
    have := ih (a + 1) (n + 1) (by omega) (by rw [hg, e])
    rw [e, this]
    congr 3
    omega

omit [CommRing R] [StarRing R] [DecidableEq R] [UnitaryCheck R] in
theorem find_withGate (dims : List Nat) (q : Nat) {g : GateObj R} (hg : g.isHXZ = true) :
    (withGate dims q g).find? (·.isHXZ) = some g := by
  unfold withGate
  rw [List.find?_append]
  have : (idle (R := R) dims 0 q).find? (·.isHXZ) = none := by
    rw [List.find?_eq_none]
    intro x hx
    obtain ⟨r, rfl, _⟩ := mem_idle hx
    simp [GateObj.isHXZ]
  rw [this]
  simp [hg]

omit [StarRing R] [DecidableEq R] [UnitaryCheck R] in
theorem not_idle_withGate {dims : List Nat} {q : Nat} {g : GateObj R} (hg : g.isIdent = false) :
    (q : Int) ∉ identRegs (withGate dims q g) := by
  unfold withGate
  rw [identRegs_split]
  intro h
  rcases List.mem_append.1 h with h | h
  · rw [idle_eq, mem_identRegs_ids] at h
    obtain ⟨r, h1, h2, h3⟩ := h
    omega
  · have e : identRegs (g :: idle dims (q + 1) dims.length) = identRegs (idle (R := R) dims (q + 1) dims.length) := by
      cases g <;> first | rfl | simp [GateObj.isIdent] at hg
    rw [e, idle_eq, mem_identRegs_ids] at h
    obtain ⟨r, h1, h2, h3⟩ := h
    omega

omit [CommRing R] [StarRing R] [DecidableEq R] [UnitaryCheck R] in
theorem withGate_noMeas {dims : List Nat} {q : Nat} {g : GateObj R} (hg : g.isMeas = false) :
    ∀ x ∈ withGate dims q g, x.isMeas = false := by
  intro x hx
  unfold withGate at hx
  rcases List.mem_append.1 hx with hx | hx
  · obtain ⟨r, rfl, _⟩ := mem_idle hx
    rfl
  · rcases List.mem_cons.1 hx with rfl | hx
    · exact hg
    · obtain ⟨r, rfl, _⟩ := mem_idle hx
      rfl

/-! ### The value side: a single gate called again and again -/

/-- The circuit after the constructor and `m` layers with `g` on register `q`. -/
def stacked (ds : List Int) (dims : List Nat) (q : Nat) (g : GateObj R) (m : Nat) : Circuit R :=
  { freshCircuit (.list ds) dims [] none with flow :=
    { moments := initOps dims [] :: List.replicate m (withGate dims q g),
      measCount := List.replicate dims.length 0 } }

omit [StarRing R] [DecidableEq R] [UnitaryCheck R] in
theorem call_stacked {ds : List Int} {dims : List Nat} {q : Nat} (hq : q < dims.length) {k : Call R}
    {g : GateObj R} (hg : SingleGate dims q k g) (m : Nat) :
    ((stacked ds dims q g m).call k).1 = stacked ds dims q g (m + 1) := by
  have hdata : (stacked ds dims q g m).momentData (.int q) g = .ok (withGate dims q g) := by
    have := momentData_eq (stacked ds dims q g m) rfl (q := .int q) (lb := q) (ub := q) ⟨rfl, rfl⟩ (le_refl _) g
    rw [this]
    rw [show (stacked ds dims q g m).regDims = dims from rfl, layout_withGate hq]
  have hlast : ∃ last, (stacked ds dims q g m).flow.moments.getLast? = some last ∧ (q : Int) ∉ identRegs last := by
    cases m with
    | zero =>
      refine ⟨initOps dims [], rfl, ?_⟩
      intro h
      unfold identRegs at h
      obtain ⟨x, h1, h2⟩ := List.mem_filterMap.1 h
      obtain ⟨i, _, rfl⟩ := List.mem_map.1 h1
      simp at h2
    | succ m =>
      refine ⟨withGate dims q g, ?_, not_idle_withGate hg.noIdent⟩
      simp only [stacked, List.replicate_succ']
      rw [← List.cons_append, List.getLast?_concat]
  obtain ⟨last, h1, h2⟩ := hlast
  have hmc : ((stacked ds dims q g m).flow.measCount.all (· ≠ 0)) = false := by
    obtain ⟨n, hn⟩ : ∃ n, dims.length = n + 1 := ⟨dims.length - 1, by omega⟩
    simp [stacked, hn, List.replicate_succ]
  have hpop : (stacked ds dims q g m).flow.populate (withGate dims q g) =
      .ok ((stacked ds dims q g m).flow.append (withGate dims q g), true) := by
    unfold Flow.populate
    rw [h1]
    simp only [hmc, find_withGate dims q hg.hxz, hg.acting, ok_bind, Bool.false_eq_true, if_false]
    simp [h2]
  unfold Circuit.call
  rw [hg.value _ rfl rfl]
  unfold Circuit.addMoment
  rw [hdata]
  simp only [ok_bind, hpop]
  unfold Flow.append
  rw [detectMeas_none _ _ (withGate_noMeas hg.noMeas)]
  simp [stacked, List.replicate_succ']

omit [StarRing R] [DecidableEq R] [UnitaryCheck R] in
theorem calls_stacked {ds : List Int} {dims : List Nat} {q : Nat} (hq : q < dims.length) {k : Call R}
    {g : GateObj R} (hg : SingleGate dims q k g) (m : Nat) :
    (freshCircuit (.list ds) dims [] none).calls (List.replicate m k) = stacked ds dims q g m := by
  induction m with
  | zero => rfl
  | succ m ih => rw [List.replicate_succ', Circuit.calls_append, ih]; exact call_stacked hq hg m

/-! ### The object side -/

/-- `run()` without any assumption on sharing. -/
theorem runAnyObj_val (N : Numerics R) (B : Backend R) {w : World R} {i : Nat} {o : CircObj R}
    (ho : w.circs[i]? = some o) (hop : o.opflow < w.refs.length) :
    (runAnyObj N B i w).1 = (o.read w).runAny N B := by
  unfold runAnyObj execAnyObj Circuit.runAny
  simp only [act_bind, circ, ho, refList, newRefs]
  have hmc : (o.read w).flow.measCount = o.measCount := rfl
  have hmom : (o.read w).flow.moments = (w.refs.getD o.opflow []).map fun m => w.moms.getD m [] := rfl
  rw [hmc, hmom]
  by_cases hall : (o.measCount.all (· ≠ 0)) = true
  · simp only [hall, if_true, act_bind, refList, getD_length]
    by_cases he : (w.refs.getD o.opflow []).isEmpty = true
    · have he' : ((w.refs.getD o.opflow []).map fun m => w.moms.getD m []).isEmpty = true := by
        rw [List.isEmpty_iff] at he ⊢
        rw [he]
        rfl
      simp only [he, he', if_true, Act.raise]
    · have he' : ¬ ((w.refs.getD o.opflow []).map fun m => w.moms.getD m []).isEmpty = true := by
        rw [List.isEmpty_iff] at he ⊢
        simpa using he
      simp only [he, he', Bool.false_eq_true, if_false, act_bind, setRefs, refList]
      rw [loopAnyObj_eq]
      simp only [getD_modify, List.length_append, List.length_singleton, getD_length]
      rw [if_pos (by simp), List.map_reverse, List.map_dropLast]
      generalize flowLoopAny N B _ _ = x
      cases x with
      | error e => rfl
      | ok x =>
        cases x with
        | none => rfl
        | some m =>
          have hv : ({ w with refs := (w.refs ++ [w.refs.getD o.opflow []]).modify w.refs.length List.dropLast } :
              World R).view i = some (o.read w) := by
            refine (view_some (o := o) (w := { w with refs :=
              (w.refs ++ [w.refs.getD o.opflow []]).modify w.refs.length List.dropLast }) ho).trans ?_
            congr 1
            refine read_congr (w := w) (o := o) rfl ?_ ?_
            · simp only []
              rw [getD_modify, if_neg (by omega), getD_append_left' hop]
            · intro m _
              rfl
          simp only [act_bind, ok_bind, look, hv]
          cases hc : (o.read w).output.call (B.toarray m) with
          | error e => rfl
          | ok r => rfl
  · simp only [hall, Bool.false_eq_true, if_false, Act.raise]

/-- Circuits `0, ..., C - 1` on one list of dimensions, unmeasured; circuit `i` has the layers `refs i`. -/
def shared (ds : List Int) (n C : Nat) (refs : Nat → List Nat) (moms : List (List (GateObj R))) : World R :=
  ⟨[ds], (List.range C).map refs, moms,
    (List.range C).map fun i => ⟨.list 0, n, i, List.replicate n 0, none, none⟩⟩

omit [CommRing R] [StarRing R] [DecidableEq R] [UnitaryCheck R] in
theorem shared_circs {ds : List Int} {n C : Nat} {refs : Nat → List Nat} {moms : List (List (GateObj R))}
    {i : Nat} (hi : i < C) :
    (shared ds n C refs moms).circs[i]? = some ⟨.list 0, n, i, List.replicate n 0, none, none⟩ := by
  simp [shared, hi]

omit [CommRing R] [StarRing R] [DecidableEq R] [UnitaryCheck R] in
theorem shared_refs {ds : List Int} {n C : Nat} {refs : Nat → List Nat} {moms : List (List (GateObj R))}
    {i : Nat} (hi : i < C) : (shared ds n C refs moms).refs.getD i [] = refs i := by
  simp [shared, List.getD_eq_getElem?_getD, hi]

omit [CommRing R] [StarRing R] [DecidableEq R] [UnitaryCheck R] in
theorem modify_same {α : Type} (l : List α) (i : Nat) (f : α → α) (h : ∀ a, l[i]? = some a → f a = a) :
    l.modify i f = l := by
  apply List.ext_getElem?
  intro j
  rw [getElem?_modify']
  split
  · rename_i e
    subst e
    cases hj : l[j]? with
    | none => rfl
    | some a => simp [h a hj]
  · rfl

omit [CommRing R] [StarRing R] [DecidableEq R] [UnitaryCheck R] in
theorem modify_range {C i : Nat} (refs : Nat → List Nat) (f : List Nat → List Nat) :
    ((List.range C).map refs).modify i f = (List.range C).map (Function.update refs i (f (refs i))) := by
  apply List.ext_getElem?
  intro j
  rw [getElem?_modify']
  by_cases hj : j < C
  · by_cases e : j = i
    · subst e; simp [hj]
    · simp [hj, e, Function.update_of_ne e]
  · by_cases e : j = i
    · subst e; simp [hj]
    · simp [hj, e]

omit [CommRing R] [StarRing R] [DecidableEq R] [UnitaryCheck R] in
theorem all_zero {n : Nat} (h : 0 < n) : ((List.replicate n 0).all (· ≠ 0)) = false := by
  obtain ⟨m, rfl⟩ : ∃ m, n = m + 1 := ⟨n - 1, by omega⟩
  simp [List.replicate_succ]

omit [CommRing R] [StarRing R] [DecidableEq R] [UnitaryCheck R] in
theorem idle_hxz (dims : List Nat) (a b : Nat) : (idle (R := R) dims a b).find? (·.isHXZ) = none := by
  rw [List.find?_eq_none]
  intro x hx
  obtain ⟨r, rfl, _⟩ := mem_idle hx
  simp [GateObj.isHXZ]

/-- Handing an idle layer over puts the object itself at the end. -/
theorem feed_shared {ds : List Int} {n C : Nat} {refs : Nat → List Nat} {moms : List (List (GateObj R))}
    {dims : List Nat} {i m : Nat} (hn : 0 < n) (hi : i < C) (hr : refs i ≠ [])
    (hm : moms.getD m [] = idle dims 0 n) :
    feedObj i [m] (shared ds n C refs moms) =
      (.ok true, shared ds n C (Function.update refs i (refs i ++ [m])) moms) := by
  have hm' : (shared ds n C refs moms).moms.getD m [] = idle dims 0 n := hm
  obtain ⟨last, hl⟩ : ∃ last, (refs i).getLast? = some last :=
    ⟨_, List.getLast?_eq_some_getLast hr⟩
  unfold feedObj feedOneObj
  simp only [act_bind, circ, shared_circs hi, momentList, refList, shared_refs hi, hl, all_zero hn, hm',
    idle_hxz, Bool.false_eq_true, if_false]
  unfold addAnyObj
  simp only [act_bind, circ, shared_circs hi, momentList, setRefs, hm']
  have hw : ({ shared ds n C refs moms with refs := (shared ds n C refs moms).refs.modify i (· ++ [m]) } : World R) =
      shared ds n C (Function.update refs i (refs i ++ [m])) moms := by
    unfold shared
    simp only [modify_range]
  have hnone : ∀ mc : List Nat, detectAny mc (idle (R := R) dims 0 n).zipIdx = (mc, .ok ()) := by
    intro mc
    apply detectAny_none
    intro g hg
    obtain ⟨r, rfl, _⟩ := mem_idle hg
    rfl
  rw [hw, detectAnyObj_eq _ (shared_circs hi)]
  simp only [hnone, act_pure, feedObj]
  congr 1
  rw [modify_same]
  intro a _
  rfl

omit [StarRing R] [DecidableEq R] [UnitaryCheck R] in
theorem shared_view {ds : List Int} {n C : Nat} {refs : Nat → List Nat} {moms : List (List (GateObj R))}
    {i : Nat} (hi : i < C) : (shared ds n C refs moms).view i =
      some (CircObj.read (shared ds n C refs moms) ⟨.list 0, n, i, List.replicate n 0, none, none⟩) :=
  view_some (shared_circs hi)

omit [StarRing R] [DecidableEq R] [UnitaryCheck R] in
/-- A gate that finds its register idle in the last layer is put into that object. -/
theorem call_shared {dims : List Nat} {C q : Nat} {refs : Nat → List Nat}
    {moms : List (List (GateObj R))} {j m : Nat} {k : Call R} {g : GateObj R} (hq : q < dims.length)
    (hg : SingleGate dims q k g) (hj : j < C) (hl : (refs j).getLast? = some m)
    (hm : moms.getD m [] = idle dims 0 dims.length) (hlt : m < moms.length) :
    callObj j k (shared (dims.map Int.ofNat) dims.length C refs moms) =
      (.ok true, shared (dims.map Int.ofNat) dims.length C refs
        (moms.set m (withGate dims q g) ++ [withGate dims q g])) := by
  set w := shared (dims.map Int.ofNat) dims.length C refs moms with hw
  have hdims : ((dims.map Int.ofNat).map Int.toNat) = dims := by
    rw [List.map_map]
    conv_rhs => rw [← List.map_id dims]
    exact List.map_congr_left fun a _ => rfl
  set c := CircObj.read w ⟨.list 0, dims.length, j, List.replicate dims.length 0, none, none⟩ with hc
  have hv : w.view j = some c := shared_view hj
  have hcl : c.regLength = dims.length := rfl
  have hcd : c.regDims = dims := hdims
  rw [hg.obj w j c hv hcl hcd]
  unfold addMomentObj
  have hdata : c.momentData (.int q) g = .ok (withGate dims q g) := by
    have := momentData_eq c (by rw [hcl, hcd]) (q := .int q) (lb := q) (ub := q) ⟨rfl, rfl⟩ (le_refl _) g
    rw [this, hcd, layout_withGate hq]
  simp only [act_bind, look, hv, hdata, newMoment]
  set w1 : World R := { w with moms := w.moms ++ [withGate dims q g] } with hw1
  have e1 : w1.circs[j]? = some ⟨.list 0, dims.length, j, List.replicate dims.length 0, none, none⟩ :=
    shared_circs hj
  have e2 : w1.refs.getD j [] = refs j := shared_refs hj
  have e3 : w1.moms.getD w.moms.length [] = withGate dims q g := getD_length _ _ _
  have e4 : w1.moms.getD m [] = idle dims 0 dims.length := by
    rw [← hm]
    exact getD_append_left' hlt _ _
  have hsplit := idle_split (R := R) dims hq
  have hin : (q : Int) ∈ identRegs (idle (R := R) dims 0 dims.length) := by
    rw [idle_eq, mem_identRegs_ids]
    exact ⟨q, rfl, by omega, hq⟩
  unfold populateObj
  simp only [act_bind, circ, e1, momentList, refList, e2, e3, e4, hl, all_zero (Nat.lt_of_le_of_lt (Nat.zero_le q) hq),
    find_withGate dims q hg.hxz, hg.acting, Act.lift, Bool.false_eq_true, if_false]
  rw [if_pos (by simp [hin])]
  unfold replaceObj
  simp only [act_bind, momentList, e4, Act.lift]
  have hget : getQregMoment (q : Int) (idle (R := R) dims 0 dims.length) 0 =
      .ok (some (.ident q (dims.getD q 0), q)) := by
    rw [hsplit, getQreg_idle dims q 0 (Nat.zero_le _) _ _ rfl]
    simp
  simp only [hget]
  refine Eq.trans (b := (.ok true, { w1 with moms := w1.moms.modify m (·.set q g) })) rfl ?_
  congr 1
  rw [hw1, hw]
  unfold shared
  congr 1
  simp only []
  apply List.ext_getElem?
  intro a
  rw [getElem?_modify']
  by_cases ha : a = m
  · subst ha
    rw [if_pos rfl, List.getElem?_append_left hlt, List.getElem?_append_left (by simpa using hlt)]
    have : moms[a]? = some (idle dims 0 dims.length) := by
      rw [List.getD_eq_getElem?_getD] at hm
      rw [List.getElem?_eq_getElem hlt] at hm ⊢
      simpa using hm
    rw [this, List.getElem?_set_self hlt]
    simp only [Option.map_some]
    congr 1
    rw [hsplit]
    unfold withGate
    rw [List.set_append_right]
    · simp [idle]
    · simp [idle]
  · rw [if_neg ha]
    by_cases hlt' : a < moms.length
    · rw [List.getElem?_append_left hlt', List.getElem?_append_left (by simpa using hlt'),
        List.getElem?_set_ne (fun e => ha e.symm)]
    · rw [List.getElem?_append_right (by omega), List.getElem?_append_right (by simp; omega)]
      simp

/-- `measure_all()` and `run()` on one of the circuits. -/
theorem measure_run_shared (N : Numerics R) (B : Backend R) {ds : List Int} {n C : Nat} {refs : Nat → List Nat}
    {moms : List (List (GateObj R))} {i : Nat} (hn : 0 < n) (hi : i < C) (hr : refs i ≠ [])
    (hb : ∀ m ∈ refs i, m < moms.length) {c : Circuit R} (hv : (shared ds n C refs moms).view i = some c) :
    i < (callObj i .measureAll (shared ds n C refs moms)).2.circs.length ∧
    (runAnyObj N B i (callObj i .measureAll (shared ds n C refs moms)).2).1 =
      (c.call .measureAll).1.runAny N B := by
  set w := shared ds n C refs moms with hw
  set o : CircObj R := ⟨.list 0, n, i, List.replicate n 0, none, none⟩ with ho
  have hc : c = o.read w := by
    rw [hw, shared_view hi] at hv
    exact (Option.some.inj hv).symm
  subst hc
  set ms : List (GateObj R) := (List.range n).map .meas with hms
  obtain ⟨last, hl⟩ : ∃ last, (refs i).getLast? = some last := ⟨_, List.getLast?_eq_some_getLast hr⟩
  have hmeas : ms.find? (·.isHXZ) = none := by
    rw [List.find?_eq_none]
    intro x hx
    obtain ⟨r, _, rfl⟩ := List.mem_map.1 hx
    simp [GateObj.isHXZ]
  set w1 : World R := { w with moms := w.moms ++ [ms] } with hw1
  have e1 : w1.circs[i]? = some o := shared_circs hi
  have e1' : w.circs[i]? = some o := shared_circs hi
  have e2 : w1.refs.getD i [] = refs i := shared_refs hi
  have e3 : w1.moms.getD w.moms.length [] = ms := getD_length _ _ _
  set w2 : World R := { w1 with
    refs := w1.refs.modify i (· ++ [w.moms.length])
    circs := w1.circs.modify i fun o => { o with measCount := detectMeas o.measCount ms } } with hw2
  have hoi : o.opflow = i := rfl
  have hom : o.measCount = List.replicate n 0 := rfl
  have hpop : populateObj i w.moms.length w1 = (.ok true, w2) := by
    unfold populateObj
    simp only [act_bind, circ, e1, momentList, e3, refList, hoi, e2, hl, hom, all_zero hn, hmeas,
      Bool.false_eq_true, if_false]
    unfold appendObj
    simp only [act_bind, circ, e1, setRefs, detectObj_eq, act_pure, hoi]
    rw [show (World.moms w1).getD w.moms.length [] = ms from e3]
  have hcall : callObj i .measureAll w = (.ok true, w2) := by
    have : callObj i .measureAll w = (circ i >>= fun o => newMoment ((List.range o.regLength).map .meas) >>= fun m =>
        populateObj i m >>= fun _ => pure true : Act R Bool) w := rfl
    rw [this]
    simp only [act_bind, circ, e1', newMoment]
    rw [show ({ w with moms := w.moms ++ [(List.range o.regLength).map GateObj.meas] } : World R) = w1 from rfl,
      hpop]
    rfl
  have ho2 : w2.circs[i]? = some { o with measCount := detectMeas o.measCount ms } := by
    rw [hw2]
    simp only [getElem?_modify', if_true, e1, Option.map_some]
  rw [hcall]
  refine ⟨?_, ?_⟩
  · rw [hw2, hw1, hw]
    simpa [shared] using hi
  rw [runAnyObj_val N B ho2 (by rw [hw2, hw1, hw]; simpa [shared] using hi)]
  congr 1
  -- the circuit read from the memory afterwards
  have hval : ((o.read w).call .measureAll).1 = { o.read w with flow :=
      { moments := (o.read w).flow.moments ++ [ms], measCount := detectMeas o.measCount ms } } := by
    unfold Circuit.call Circuit.callM
    have hlast : ∃ l, (o.read w).flow.moments.getLast? = some l := by
      have : (o.read w).flow.moments = (refs i).map fun m => w.moms.getD m [] := by
        rw [show (o.read w).flow.moments = (w.refs.getD i []).map fun m => w.moms.getD m [] from rfl, hw,
          shared_refs hi]
      rw [this, List.getLast?_map, hl]
      exact ⟨_, rfl⟩
    obtain ⟨l, hlast⟩ := hlast
    have hpop : (o.read w).flow.populate ((List.range (o.read w).regLength).map .meas) =
        .ok ((o.read w).flow.append ms, true) := by
      rw [show ((List.range (o.read w).regLength).map GateObj.meas : List (GateObj R)) = ms from rfl]
      unfold Flow.populate
      rw [hlast]
      simp only [show (o.read w).flow.measCount = List.replicate n 0 from rfl, all_zero hn, hmeas,
        Bool.false_eq_true, if_false]
    rw [hpop]
    rfl
  rw [hval]
  unfold CircObj.read
  have f1 : w2.refs.getD i [] = refs i ++ [w.moms.length] := by
    rw [hw2]
    simp only [getD_modify, e2]
    rw [if_pos ⟨trivial, by rw [hw1, hw]; simpa [shared] using hi⟩]
  have f2 : w.refs.getD i [] = refs i := shared_refs hi
  simp only [hoi, f1, f2]
  have f3 : ((refs i ++ [w.moms.length]).map fun m => w2.moms.getD m []) =
      ((refs i).map fun m => w.moms.getD m []) ++ [ms] := by
    rw [List.map_append]
    congr 1
    · apply List.map_congr_left
      intro m hm
      exact getD_append_left' (hb m hm) _ _
    · simp only [List.map_cons, List.map_nil]
      rw [show w2.moms.getD w.moms.length [] = ms from e3]
  rw [f3]
  rfl

omit [StarRing R] [DecidableEq R] [UnitaryCheck R] in
/-- The constructor, on the shared list of dimensions. -/
theorem new_shared {dims : List Nat} (hv : ValidStart (dims.map Int.ofNat) []) (hn : 0 < dims.length) (C : Nat) :
    newObj (R := R) (.list 0) none none (shared (dims.map Int.ofNat) dims.length C (fun i => [i])
        (List.replicate C (initOps dims []))) =
      (.ok C, shared (dims.map Int.ofNat) dims.length (C + 1) (fun i => [i])
        (List.replicate (C + 1) (initOps dims []))) := by
  set w : World R := shared (dims.map Int.ofNat) dims.length C (fun i => [i])
    (List.replicate C (initOps dims [])) with hw
  have hread : ((RegsRef.list 0).read w).dims = dims.map Int.ofNat := rfl
  have h0 : newObj (.list 0) none none w = newCore (.list 0) none (dims.map Int.ofNat)
      (extendStates (dims.map Int.ofNat).length []) w := rfl
  rw [h0]
  unfold newCore
  rw [show (dims.map Int.ofNat).length = dims.length by simp, initMoment_ok hv]
  have l1 : w.refs.length = C := by simp [hw, shared]
  have l2 : w.circs.length = C := by simp [hw, shared]
  have l3 : w.moms.length = C := by simp [hw, shared]
  set o : CircObj R := ⟨.list 0, dims.length, C, [0], none, none⟩ with ho
  set w1 : World R := ⟨w.ints, w.refs ++ [[]], w.moms ++ [initOps dims []], w.circs ++ [o]⟩ with hw1
  have e1 : w1.circs[C]? = some o := by
    simp [hw1, l2]
  have e2 : w1.refs.getD C [] = [] := by
    have := getD_length w.refs [] []
    rwa [l1] at this
  have e3 : w1.moms.getD C [] = initOps dims [] := by
    have := getD_length w.moms (initOps dims []) []
    rwa [l3] at this
  have hlen : (initOps (R := R) dims []).length = dims.length := by simp [initOps]
  have hoi : o.opflow = C := rfl
  have hmod : ∀ f : CircObj R → CircObj R, w1.circs.modify C f = w.circs ++ [f o] := by
    intro f
    simp only [hw1]
    apply List.ext_getElem?
    intro j
    rw [getElem?_modify']
    by_cases hj : j = C
    · subst hj
      simp [l2]
    · rw [if_neg hj]
      by_cases hlt : j < C
      · rw [List.getElem?_append_left (by omega), List.getElem?_append_left (by omega)]
      · rw [List.getElem?_eq_none (by simp; omega), List.getElem?_eq_none (by simp; omega)]
  have hmr : w1.refs.modify C (· ++ [C]) = w.refs ++ [[C]] := by
    simp only [hw1]
    apply List.ext_getElem?
    intro j
    rw [getElem?_modify']
    by_cases hj : j = C
    · subst hj
      simp [l1]
    · rw [if_neg hj]
      by_cases hlt : j < C
      · rw [List.getElem?_append_left (by omega), List.getElem?_append_left (by omega)]
      · rw [List.getElem?_eq_none (by simp; omega), List.getElem?_eq_none (by simp; omega)]
  have hpop : populateObj C C w1 = (.ok true, ⟨w.ints, w.refs ++ [[C]], w.moms ++ [initOps dims []],
      w.circs ++ [{ o with measCount := List.replicate dims.length 0 }]⟩) := by
    unfold populateObj
    simp only [act_bind, circ, e1, momentList, e3, refList, hoi, e2, List.getLast?_nil, setCirc, hmod, hlen]
    unfold appendObj
    have e4 : (w.circs ++ [({ o with measCount := List.replicate dims.length 0 } : CircObj R)])[C]? =
        some { o with measCount := List.replicate dims.length 0 } := by
      simp [l2]
    simp only [hoi] at e4
    simp only [act_bind, circ, e4, setRefs, detectObj_eq, act_pure, hmr]
    congr 2
    apply modify_same
    intro a ha
    rw [show (World.moms w1).getD C [] = initOps dims [] from e3,
      detectMeas_none _ _ fun g hg => (initOps_isInit dims [] g hg).2]
  simp only [act_bind, Act.lift, newRefs, newCirc, newMoment, l1, l2, l3]
  have hww : (⟨w.ints, w.refs ++ [[]], w.moms ++ [initOps dims []],
      w.circs ++ [⟨.list 0, dims.length, C, [0], none, none⟩]⟩ : World R) = w1 := rfl
  simp only [hww, hpop, act_pure]
  congr 1
  simp only [hw, shared, List.range_succ, List.map_append, List.map_cons, List.map_nil, List.replicate_succ', ho]

/-! ### Sessions -/

/-- The memory after a session. -/
def Bench.after (N : Numerics R) (B : Backend R) (b : Bench R) (es : List (Action R)) : Bench R :=
  es.foldl (fun b e => (b.step N B e).2) b

theorem bench_append (N : Numerics R) (B : Backend R) (b : Bench R) (es fs : List (Action R)) :
    b.observe N B (es ++ fs) = b.observe N B es ++ (b.after N B es).observe N B fs := by
  induction es generalizing b with
  | nil => rfl
  | cons e es ih =>
    simp only [List.cons_append, Bench.observe, ih]
    rfl

theorem after_append (N : Numerics R) (B : Backend R) (b : Bench R) (es fs : List (Action R)) :
    b.after N B (es ++ fs) = (b.after N B es).after N B fs := by
  unfold Bench.after
  rw [List.foldl_append]

/-- `C` circuits on the dimensions `ds` are made, then one layer that is idle on all registers. This one
`Moment` is handed to the circuits `H` in turn, where a circuit may occur several times or not at all. Then the
call `k` is made on circuit `j`. -/
def oneLayer (ds : List Int) (C : Nat) (H : List Nat) (j : Nat) (k : Call R) : List (Action R) :=
  .plain (.list ds) :: List.replicate C (.plain (.new (.list 0) none none)) ++
    [.layer (idle (ds.map Int.toNat) 0 ds.length)] ++ H.map (fun i => .hand i [.made 0]) ++ [.plain (.call j k)]

theorem after_oneLayer (N : Numerics R) (B : Backend R) {dims : List Nat}
    (hv : ValidStart (dims.map Int.ofNat) []) {C : Nat} {H : List Nat} {j q : Nat} {k : Call R} {g : GateObj R}
    (hH : ∀ i ∈ H, i < C) (hj : j ∈ H) (hq : q < dims.length) (hg : SingleGate dims q k g) :
    Bench.empty.after N B (oneLayer (dims.map Int.ofNat) C H j k) =
      ⟨shared (dims.map Int.ofNat) dims.length C (fun i => i :: List.replicate (H.count i) C)
        (List.replicate C (initOps dims []) ++ [withGate dims q g, withGate dims q g]), [C]⟩ := by
  have hn : 0 < dims.length := by omega
  have hdims : (dims.map Int.ofNat).map Int.toNat = dims := by
    rw [List.map_map]
    conv_rhs => rw [← List.map_id dims]
    exact List.map_congr_left fun a _ => rfl
  have h1 : ∀ C : Nat, Bench.empty.after N B (.plain (.list (dims.map Int.ofNat)) ::
      List.replicate C (.plain (.new (.list 0) none none))) =
      ⟨shared (dims.map Int.ofNat) dims.length C (fun i => [i]) (List.replicate C (initOps dims [])), []⟩ := by
    intro C
    induction C with
    | zero => rfl
    | succ C ih =>
      rw [List.replicate_succ', ← List.cons_append, after_append, ih]
      unfold Bench.after
      simp only [List.foldl_cons, List.foldl_nil, Bench.step, World.step]
      rw [if_pos (by simp [listsExist, shared]), new_shared hv hn]
  have h2 : ∀ (H : List Nat) (f : Nat → Nat), (∀ i ∈ H, i < C) →
      Bench.after N B ⟨shared (dims.map Int.ofNat) dims.length C (fun i => i :: List.replicate (f i) C)
        (List.replicate C (initOps dims []) ++ [idle dims 0 dims.length]), [C]⟩
        (H.map (fun i => .hand i [.made 0])) =
      ⟨shared (dims.map Int.ofNat) dims.length C (fun i => i :: List.replicate (f i + H.count i) C)
        (List.replicate C (initOps dims []) ++ [idle dims 0 dims.length]), [C]⟩ := by
    intro H
    induction H with
    | nil => intro f _; rfl
    | cons a H ih =>
      intro f hH
      have ha := hH a (by simp)
      unfold Bench.after at ih ⊢
      rw [List.map_cons, List.foldl_cons]
      have hstep : (Bench.step N B ⟨shared (dims.map Int.ofNat) dims.length C (fun i => i :: List.replicate (f i) C)
          (List.replicate C (initOps dims []) ++ [idle dims 0 dims.length]), [C]⟩ (.hand a [.made 0])).2 =
          ⟨shared (dims.map Int.ofNat) dims.length C
            (fun i => i :: List.replicate (Function.update f a (f a + 1) i) C)
            (List.replicate C (initOps dims []) ++ [idle dims 0 dims.length]), [C]⟩ := by
        simp only [Bench.step, List.mapM_cons, List.mapM_nil, Bench.find, List.getElem?_cons_zero,
          Option.bind_eq_bind, Option.bind_some, Option.pure_def]
        rw [if_pos (by simpa [shared] using ha)]
        rw [feed_shared (dims := dims) hn ha (by simp) (by simp [List.getD_eq_getElem?_getD])]
        simp only []
        congr 2
        funext i
        by_cases e : i = a
        · subst e
          simp [List.replicate_succ']
        · simp [Function.update_of_ne e]
      rw [hstep, ih _ fun i hi => hH i (by simp [hi])]
      congr 2
      funext i
      by_cases e : i = a
      · subst e
        simp
        omega
      · simp [Function.update_of_ne e, List.count_cons_of_ne (fun h => e h.symm)]
  unfold oneLayer
  rw [after_append, after_append, after_append, h1]
  have hlay : Bench.after N B ⟨shared (dims.map Int.ofNat) dims.length C (fun i => [i])
      (List.replicate C (initOps dims [])), []⟩
      [.layer (idle ((dims.map Int.ofNat).map Int.toNat) 0 (dims.map Int.ofNat).length)] =
      ⟨shared (dims.map Int.ofNat) dims.length C (fun i => i :: List.replicate 0 C)
        (List.replicate C (initOps dims []) ++ [idle dims 0 dims.length]), [C]⟩ := by
    rw [hdims]
    simp [Bench.after, Bench.step, shared]
  rw [hlay, h2 H (fun _ => 0) hH]
  unfold Bench.after
  simp only [List.foldl_cons, List.foldl_nil, Bench.step, World.step]
  have hjC := hH j hj
  rw [if_pos (by simpa [shared] using hjC)]
  have hcount : 0 < H.count j := List.count_pos_iff.2 hj
  rw [call_shared (m := C) hq hg hjC]
  · simp
  · obtain ⟨c, hc⟩ : ∃ c, 0 + H.count j = c + 1 := ⟨H.count j - 1, by omega⟩
    rw [hc, List.replicate_succ', ← List.cons_append, List.getLast?_concat]
  · simp [List.getD_eq_getElem?_getD]
  · simp

/-- **A layer handed over several times leaks.** One call on circuit `j` takes effect on every circuit, as
many times as the layer was handed to it: zero or more times on the circuits `i` that were never called. -/
theorem C67_shared_layer_leaks (N : Numerics R) (B : Backend R) {ds : List Int} {c : Circuit R}
    (hc : Circuit.new (.list ds) [] none = .ok c) {C : Nat} {H : List Nat} (hH : ∀ i ∈ H, i < C)
    {j : Nat} (hj : j ∈ H) {q : Nat} (hq : q < ds.length) {p : Int} {k : Call R}
    (hk : k ∈ ([.h q none, .x q none p, .z q none] : List (Call R))) {i : Nat} (hi : i < C) :
    (Bench.empty.observe N B (oneLayer ds C H j k ++ [.plain (.call i .measureAll), .plain (.run i)])).getLast? =
      some (.plain (.result (script N B (.list ds) [] none (List.replicate (H.count i) k ++ [.measureAll])))) := by
  obtain ⟨dims, hd, hv, rfl⟩ := new_fresh hc
  have hds : ds = dims.map Int.ofNat := hd
  subst hds
  rw [List.length_map] at hq
  obtain ⟨g, hg⟩ := single_gate hq hk
  have hn : 0 < dims.length := by omega
  rw [bench_append, after_oneLayer N B hv hH hj hq hg]
  have hdims : (dims.map Int.ofNat).map Int.toNat = dims := by
    rw [List.map_map]
    conv_rhs => rw [← List.map_id dims]
    exact List.map_congr_left fun a _ => rfl
  have hview : (shared (dims.map Int.ofNat) dims.length C (fun i => i :: List.replicate (H.count i) C)
      (List.replicate C (initOps dims []) ++ [withGate dims q g, withGate dims q g])).view i =
      some (stacked (dims.map Int.ofNat) dims q g (H.count i)) := by
    rw [shared_view hi]
    congr 1
    unfold CircObj.read
    simp only [shared_refs hi]
    unfold stacked freshCircuit
    simp only [shared, RegsRef.read, List.getD_cons_zero, RegsArg.dims, hdims, Option.getD_none]
    congr 2
    simp only [List.map_cons, List.map_replicate]
    congr 1
    · rw [List.getD_eq_getElem?_getD, List.getElem?_append_left (by simpa using hi)]
      simp [hi]
    · congr 1
      simp [List.getD_eq_getElem?_getD]
  have hmr := measure_run_shared N B hn hi (by simp) (fun m hm => by
    simp only [List.mem_cons, List.mem_replicate] at hm
    simp only [List.length_append, List.length_replicate, List.length_cons]
    omega) hview
  simp only [Bench.observe, Bench.step, World.step]
  rw [if_pos (by simpa [shared] using hi)]
  simp only []
  rw [if_pos hmr.1, hmr.2]
  rw [List.getLast?_append]
  simp only [List.getLast?_cons_cons, List.getLast?_singleton, Option.some_or]
  congr 3
  unfold script
  rw [hc, ok_bind, ← C57_runAny_is_run N B hc (by rw [hd]; simpa using List.ne_nil_of_length_pos hn), Circuit.calls_append,
    calls_stacked hq hg]
  rfl

/-- The layer that the caller holds has changed, too. -/
theorem C67_shared_layer_changes (N : Numerics R) (B : Backend R) {ds : List Int} {c : Circuit R}
    (hc : Circuit.new (.list ds) [] none = .ok c) {C : Nat} {H : List Nat} (hH : ∀ i ∈ H, i < C)
    {j : Nat} (hj : j ∈ H) {q : Nat} (hq : q < ds.length) {p : Int} {k : Call R}
    (hk : k ∈ ([.h q none, .x q none p, .z q none] : List (Call R))) :
    ∃ g : GateObj R, g.isIdent = false ∧
      (Bench.empty.observe N B (oneLayer ds C H j k ++ [.peekLayer 0])).getLast? =
        some (.gates ((idle (ds.map Int.toNat) 0 ds.length).set q g)) := by
  obtain ⟨dims, hd, hv, rfl⟩ := new_fresh hc
  have hds : ds = dims.map Int.ofNat := hd
  subst hds
  rw [List.length_map] at hq
  obtain ⟨g, hg⟩ := single_gate hq hk
  refine ⟨g, hg.noIdent, ?_⟩
  have hdims : (dims.map Int.ofNat).map Int.toNat = dims := by
    rw [List.map_map]
    conv_rhs => rw [← List.map_id dims]
    exact List.map_congr_left fun a _ => rfl
  rw [bench_append, after_oneLayer N B hv hH hj hq hg, hdims, List.length_map, idle_split dims hq]
  rw [List.getLast?_append]
  simp only [Bench.observe, Bench.step, List.getElem?_cons_zero, List.getLast?_singleton, Option.some_or]
  congr 2
  rw [List.set_append_right _ _ (by simp [idle])]
  simp [idle, shared, List.getD_eq_getElem?_getD, withGate]

/-- Three circuits on a qubit and a qutrit. The layer goes to circuit 0, twice to circuit 2, and not to
circuit 1. The one call `x(1)` on circuit 0 then acts twice on circuit 2, and not on circuit 1. -/
example :
    (Bench.empty.observe sampleN (numpyBackend ℤ) (oneLayer [2, 3] 3 [0, 2, 2] 0 (.x 1 none 1) ++
      [.plain (.call 2 .measureAll), .plain (.run 2)])).getLast? =
      some (.plain (.result (script sampleN (numpyBackend ℤ) (.list [2, 3]) [] none
        [.x 1 none 1, .x 1 none 1, .measureAll]))) ∧
    (Bench.empty.observe sampleN (numpyBackend ℤ) (oneLayer [2, 3] 3 [0, 2, 2] 0 (.x 1 none 1) ++
      [.plain (.call 1 .measureAll), .plain (.run 1)])).getLast? =
      some (.plain (.result (script sampleN (numpyBackend ℤ) (.list [2, 3]) [] none [.measureAll]))) := by
  have h : ∃ c, Circuit.new (R := ℤ) (.list [2, 3]) [] none = .ok c := by
    rw [C20_constructor_accepts]
    decide
  obtain ⟨c, hc⟩ := h
  exact ⟨C67_shared_layer_leaks sampleN _ hc (C := 3) (H := [0, 2, 2]) (j := 0) (q := 1) (p := 1) (by decide)
      (by decide) (by decide) (by simp) (i := 2) (by decide),
    C67_shared_layer_leaks sampleN _ hc (C := 3) (H := [0, 2, 2]) (j := 0) (q := 1) (p := 1) (by decide)
      (by decide) (by decide) (by simp) (i := 1) (by decide)⟩

/-- So the carefulness that `C67_layers_as_values` asks for cannot be dropped: here what is seen differs from
what would be seen if the hand-over copied the layer. -/
theorem C67_care_is_needed (N : Numerics R) (B : Backend R) : ∃ es : List (Action R),
    Separate (plains es) ∧ Bench.empty.observe N B es ≠ Table.empty.observe N B es := by
  refine ⟨oneLayer [2] 1 [0] 0 (.x 0 none 1) ++ [.peekLayer 0], ?_, ?_⟩
  · apply separate_of
    simp [oneLayer, plains, Event.Changes]
  · intro he
    have h : ∃ c, Circuit.new (R := R) (.list [2]) [] none = .ok c := by
      rw [C20_constructor_accepts]
      decide
    obtain ⟨c, hc⟩ := h
    obtain ⟨g, hg, h1⟩ := C67_shared_layer_changes N B hc (C := 1) (H := [0]) (j := 0) (q := 0) (p := 1)
      (k := .x 0 none 1) (by simp) (by simp) (by simp) (by simp)
    have h2 : (Table.empty.observe N B (oneLayer [2] 1 [0] 0 (.x 0 none 1) ++ [.peekLayer 0])).getLast? =
        some (.gates (idle [2] 0 1)) := rfl
    rw [he, h2] at h1
    simp only [Option.some.injEq, Sight.gates.injEq] at h1
    have h3 : idle (R := R) [2] 0 1 = [.ident 0 2] := rfl
    rw [show ([2] : List Int).map Int.toNat = [2] from rfl, show ([2] : List Int).length = 1 from rfl, h3] at h1
    simp only [List.set_cons_zero, List.cons.injEq, and_true] at h1
    rw [← h1] at hg
    simp [GateObj.isIdent] at hg

end QuDiet
